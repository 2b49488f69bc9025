import Verif.ImageProps
/-
C83: marginalising rows, columns and channels of an `ImageWrapper`.
-/
namespace Verif.Image
open Circ

/-- The position meant by a Python index into an axis of length `n`. -/
def norm (n : ℕ) (i : ℤ) : ℕ := (if i < 0 then i + n else i).toNat

/-- A valid Python index into an axis of length `n`. -/
def InAxis (n : ℕ) (i : ℤ) : Prop := -(n : ℤ) ≤ i ∧ i < n

theorem pyIndex_eq (n : ℕ) (i : ℤ) : (InAxis n i → pyIndex n i = .ok (norm n i)) ∧
    (¬ InAxis n i → pyIndex n i = .error .indexError) := by
  unfold InAxis pyIndex norm
  constructor
  · rintro ⟨h1, h2⟩
    by_cases h : i < 0
    · rw [if_neg (by omega), if_pos ⟨h, h1⟩, if_pos h]
    · rw [if_pos ⟨by omega, h2⟩, if_neg h]
  · intro h
    rw [if_neg (by omega), if_neg (by omega)]

theorem slices_ok {n : ℕ} (sel : ℕ → List Var) {idx : List ℤ} (h : ∀ i ∈ idx, InAxis n i) :
    ∃ L, slices n sel idx = .ok L ∧ ∀ v, v ∈ L ↔ ∃ i ∈ idx, v ∈ sel (norm n i) := by
  induction idx with
  | nil => exact ⟨[], rfl, by simp⟩
  | cons i l ih =>
    obtain ⟨L, e, hL⟩ := ih fun j hj => h j (List.mem_cons_of_mem _ hj)
    refine ⟨sel (norm n i) ++ L, ?_, fun v => ?_⟩
    · simp only [slices, (pyIndex_eq n i).1 (h i List.mem_cons_self), e]
    · simp [hL]

theorem slices_bad {n : ℕ} (sel : ℕ → List Var) {idx : List ℤ} (h : ∃ i ∈ idx, ¬ InAxis n i) :
    slices n sel idx = .error .indexError := by
  induction idx with
  | nil => simp at h
  | cons i l ih =>
    unfold slices
    by_cases hi : InAxis n i
    · have : ∃ j ∈ l, ¬ InAxis n j := by
        obtain ⟨j, hj, hn⟩ := h
        rcases List.mem_cons.1 hj with rfl | hj
        · exact absurd hi hn
        · exact ⟨j, hj, hn⟩
      simp only [(pyIndex_eq n i).1 hi, ih this]
    · simp only [(pyIndex_eq n i).2 hi]

/-- Pixel `(c, h, w)` lies in one of the channels, rows or columns to be marginalised. -/
def Removed (C H D : ℕ) (cs hs ws : List ℤ) (c h w : ℕ) : Prop :=
  (∃ i ∈ cs, norm C i = c) ∨ (∃ i ∈ hs, norm H i = h) ∨ ∃ i ∈ ws, norm D i = w

theorem margVars_ok {W : Wrap} {C H D : ℕ} (s : Sized W C H D) {cs hs ws : List ℤ} (h1 : ∀ i ∈ cs, InAxis C i)
    (h2 : ∀ i ∈ hs, InAxis H i) (h3 : ∀ i ∈ ws, InAxis D i) :
    ∃ M, margVars W cs hs ws = .ok M ∧ ∀ v, v ∈ M ↔ ∃ c < C, ∃ h < H, ∃ w < D,
      Removed C H D cs hs ws c h w ∧ v = varAt W c h w := by
  have hC : W.c.toNat = C := by rw [s.c]; rfl
  have hH : W.h.toNat = H := by rw [s.h]; rfl
  have hD : W.w.toNat = D := by rw [s.w]; rfl
  have hn : ∀ {n i}, InAxis n i → norm n i < n := by
    intro n i hi
    unfold InAxis at hi
    unfold norm
    split_ifs <;> omega
  obtain ⟨A, a1, a2⟩ := slices_ok (fun h => (List.range C).flatMap fun c => (List.range D).map fun w => varAt W c h w) h2
  obtain ⟨B, b1, b2⟩ := slices_ok (fun w => (List.range C).flatMap fun c => (List.range H).map fun h => varAt W c h w) h3
  obtain ⟨E, e1, e2⟩ := slices_ok (fun c => (List.range H).flatMap fun h => (List.range D).map fun w => varAt W c h w) h1
  refine ⟨A ++ B ++ E, ?_, fun v => ?_⟩
  · unfold margVars
    simp only [hC, hH, hD, a1, b1, e1]
  · simp only [List.mem_append, a2, b2, e2, List.mem_flatMap, List.mem_map, List.mem_range, Removed]
    constructor
    · rintro ((⟨i, hi, c, hc, w, hw, rfl⟩ | ⟨i, hi, c, hc, h, hh, rfl⟩) | ⟨i, hi, h, hh, w, hw, rfl⟩)
      · exact ⟨c, hc, _, hn (h2 i hi), w, hw, .inr (.inl ⟨i, hi, rfl⟩), rfl⟩
      · exact ⟨c, hc, h, hh, _, hn (h3 i hi), .inr (.inr ⟨i, hi, rfl⟩), rfl⟩
      · exact ⟨_, hn (h1 i hi), h, hh, w, hw, .inl ⟨i, hi, rfl⟩, rfl⟩
    · rintro ⟨c, hc, h, hh, w, hw, ⟨i, hi, rfl⟩ | ⟨i, hi, rfl⟩ | ⟨i, hi, rfl⟩, rfl⟩
      · exact .inr ⟨i, hi, h, hh, w, hw, rfl⟩
      · exact .inl (.inl ⟨i, hi, c, hc, w, hw, rfl⟩)
      · exact .inl (.inr ⟨i, hi, c, hc, h, hh, rfl⟩)

theorem margVars_bad {W : Wrap} {C H D : ℕ} (s : Sized W C H D) {cs hs ws : List ℤ}
    (h : (∃ i ∈ cs, ¬ InAxis C i) ∨ (∃ i ∈ hs, ¬ InAxis H i) ∨ ∃ i ∈ ws, ¬ InAxis D i) :
    margVars W cs hs ws = .error .indexError := by
  have hC : W.c.toNat = C := by rw [s.c]; rfl
  have hH : W.h.toNat = H := by rw [s.h]; rfl
  have hD : W.w.toNat = D := by rw [s.w]; rfl
  unfold margVars
  simp only [hC, hH, hD]
  by_cases h2 : ∃ i ∈ hs, ¬ InAxis H i
  · simp only [slices_bad _ h2]
  · obtain ⟨A, a1, _⟩ := slices_ok (fun h => (List.range C).flatMap fun c => (List.range D).map fun w => varAt W c h w)
      (by simpa using h2 : ∀ i ∈ hs, InAxis H i)
    simp only [a1]
    by_cases h3 : ∃ i ∈ ws, ¬ InAxis D i
    · simp only [slices_bad _ h3]
    · obtain ⟨B, b1, _⟩ := slices_ok (fun w => (List.range C).flatMap fun c => (List.range H).map fun h => varAt W c h w)
        (by simpa using h3 : ∀ i ∈ ws, InAxis D i)
      simp only [b1]
      have h1 : ∃ i ∈ cs, ¬ InAxis C i := by
        rcases h with h | h | h
        · exact h
        · exact absurd h h2
        · exact absurd h h3
      simp only [slices_bad _ h1]

/-- The scope lists the pixels in row-major order, as the data columns do. -/
def InOrder (m : Circ) (n : ℕ) : Prop := (scope m).query = (List.range n).map fun j : ℕ => (j : ℤ)

theorem InOrder.pixels {m : Circ} {n : ℕ} (h : InOrder m n) : Pixels m n := by
  intro v
  rw [h, List.mem_map]
  constructor
  · rintro ⟨j, hj, rfl⟩
    exact ⟨Int.natCast_nonneg _, by exact_mod_cast List.mem_range.1 hj⟩
  · rintro ⟨h0, h1⟩
    exact ⟨v.toNat, List.mem_range.2 ((Int.toNat_lt h0).2 h1), Int.toNat_of_nonneg h0⟩

theorem InOrder.varAt {W : Wrap} {C H D : ℕ} (s : Sized W C H D) (h : InOrder W.module (C * H * D)) {c y w : ℕ} (hc : c < C)
    (hh : y < H) (hw : w < D) : varAt W c y w = (pixVar H D c y w : ℕ) := by
  have hlt := pixVar_lt hc hh hw
  unfold Image.varAt
  rw [h, s.column, List.getD_eq_getElem _ _ (by simpa using hlt)]
  simp

/-- The pixels that remain. -/
noncomputable def kept (C H D : ℕ) (cs hs ws : List ℤ) : Finset (ℕ × ℕ × ℕ) :=
  open Classical in
  (Finset.range C ×ˢ Finset.range H ×ˢ Finset.range D).filter fun p => ¬ Removed C H D cs hs ws p.1 p.2.1 p.2.2

theorem mem_kept {C H D : ℕ} {cs hs ws : List ℤ} {c h w : ℕ} :
    (c, h, w) ∈ kept C H D cs hs ws ↔ (c < C ∧ h < H ∧ w < D) ∧ ¬ Removed C H D cs hs ws c h w := by
  classical
  unfold kept
  simp [Finset.mem_filter, Finset.mem_product]

/-- **C83, marginalisation.** For a module whose scope lists the pixels in order: an index out of range raises an
IndexError; if no pixel remains the result is None; if the sizes left over do not multiply to the number of pixels that
remain (an index given twice) a StructureError is raised; otherwise the result is a wrapper of the smaller sizes whose module
is the original with exactly the pixels of the given channels, rows and columns integrated out. -/
theorem C83_marginalize_partial {W : Wrap} {C H D : ℕ} (s : Sized W C H D) (h : Accepted W.module) (hal : Aligned W.module)
    (hfin : FiniteLogits W.module) (hne : LeavesNonempty W.module) (hF : F W.module = 1) {T : ℕ}
    (hT : tensorR W.module = some T) (ho : InOrder W.module (C * H * D)) (cs hs ws : List ℤ) (prune : Bool) :
    (((∃ i ∈ cs, ¬ InAxis C i) ∨ (∃ i ∈ hs, ¬ InAxis H i) ∨ ∃ i ∈ ws, ¬ InAxis D i) →
      marginalize W cs hs ws prune = .error .indexError) ∧
    ((∀ i ∈ cs, InAxis C i) → (∀ i ∈ hs, InAxis H i) → (∀ i ∈ ws, InAxis D i) →
      (kept C H D cs hs ws = ∅ → marginalize W cs hs ws prune = .ok none) ∧
      (kept C H D cs hs ws ≠ ∅ → ∃ m', Accepted m' ∧ Circ.C m' = Circ.C W.module ∧ F m' = 1 ∧ tensorR m' = some T ∧
        (∀ v : ℤ, v ∈ (scope m').query ↔ ∃ p ∈ kept C H D cs hs ws, v = (pixVar H D p.1 p.2.1 p.2.2 : ℕ)) ∧
        (∀ (x : Row) (L L' : ℕ → ℕ → ℕ → LogV), Circ.logLik m' x = .ok L' →
          Circ.logLik W.module (fun v => open Classical in
            if ∃ p ∈ kept C H D cs hs ws, v = (pixVar H D p.1 p.2.1 p.2.2 : ℕ) then x v else none) = .ok L →
          ∀ ch < Circ.C W.module, ∀ r < T, L' 0 ch r = L 0 ch r) ∧
        marginalize W cs hs ws prune =
          if ((kept C H D cs hs ws).card : ℤ) = (C - cs.length) * (H - hs.length) * (D - ws.length)
          then .ok (some ⟨m', C - cs.length, H - hs.length, D - ws.length⟩) else .error .structureError)) := by
  classical
  have hsz : sizeOk W (scope W.module).query.length := by
    rw [s.size, ho]; simp
  constructor
  · intro hb
    unfold marginalize
    rw [if_pos hsz, margVars_bad s hb]
  intro h1 h2 h3
  obtain ⟨M, hM, hmem⟩ := margVars_ok s h1 h2 h3
  have hpix := ho.pixels
  have hin : ∀ v : ℤ, v ∈ (scope W.module).query → (v ∉ M ↔ ∃ p ∈ kept C H D cs hs ws, v = (pixVar H D p.1 p.2.1 p.2.2 : ℕ)) := by
    intro v hv
    obtain ⟨h0, hlt⟩ := (hpix v).1 hv
    obtain ⟨c, y, w, hc, hy, hw, e⟩ := pixel_exists ((Int.toNat_lt h0).2 hlt)
    have ev : v = (pixVar H D c y w : ℕ) := by rw [← e]; exact (Int.toNat_of_nonneg h0).symm
    have hvm : v ∈ M ↔ Removed C H D cs hs ws c y w := by
      rw [hmem]
      constructor
      · rintro ⟨c', hc', y', hy', w', hw', hr, e'⟩
        rw [ho.varAt s hc' hy' hw', ev] at e'
        obtain ⟨rfl, rfl, rfl⟩ := pixVar_inj hy hw hy' hw' (by exact_mod_cast e')
        exact hr
      · intro hr
        exact ⟨c, hc, y, hy, w, hw, hr, by rw [ho.varAt s hc hy hw]; exact ev⟩
    rw [hvm]
    constructor
    · intro hr
      exact ⟨(c, y, w), mem_kept.2 ⟨⟨hc, hy, hw⟩, hr⟩, ev⟩
    · rintro ⟨⟨c', y', w'⟩, hp, e'⟩
      obtain ⟨⟨_, hy', hw'⟩, hr⟩ := mem_kept.1 hp
      rw [ev] at e'
      obtain ⟨rfl, rfl, rfl⟩ := pixVar_inj hy hw hy' hw' (by exact_mod_cast e')
      exact hr
  have hkq : ∀ p ∈ kept C H D cs hs ws, ((pixVar H D p.1 p.2.1 p.2.2 : ℕ) : ℤ) ∈ (scope W.module).query := by
    rintro ⟨c, y, w⟩ hp
    obtain ⟨⟨hc, hy, hw⟩, _⟩ := mem_kept.1 hp
    exact (hpix _).2 ⟨Int.natCast_nonneg _, by exact_mod_cast pixVar_lt hc hy hw⟩
  obtain ⟨o, e1, e2, e3⟩ := C12_marginalize_partial M prune h hal hfin hne hT
  constructor
  · intro hk
    have : o = none := e2.2 fun v hv => by
      by_contra hno
      obtain ⟨p, hp, _⟩ := (hin v hv).1 hno
      rw [hk] at hp
      simp at hp
    subst this
    unfold marginalize
    rw [if_pos hsz, hM]
    simp only [e1]
  · intro hk
    cases o with
    | none =>
      exfalso
      obtain ⟨p, hp⟩ := Finset.nonempty_iff_ne_empty.2 hk
      have := e2.1 rfl _ (hkq p hp)
      exact (hin _ (hkq p hp)).2 ⟨p, hp, rfl⟩ this
    | some m' =>
      obtain ⟨a1, a2, a3, a4, a5⟩ := e3 m' rfl
      have hsc : ∀ v : ℤ, v ∈ (scope m').query ↔ ∃ p ∈ kept C H D cs hs ws, v = (pixVar H D p.1 p.2.1 p.2.2 : ℕ) := by
        intro v
        rw [a4]
        constructor
        · rintro ⟨hv, hv'⟩
          exact (hin v hv).1 hv'
        · rintro ⟨p, hp, rfl⟩
          exact ⟨hkq p hp, (hin _ (hkq p hp)).2 ⟨p, hp, rfl⟩⟩
      have hlen : (scope m').query.length = (kept C H D cs hs ws).card := by
        rw [← List.toFinset_card_of_nodup (scope_facts a1).1.query_nodup]
        have : (scope m').query.toFinset =
            (kept C H D cs hs ws).image fun p => ((pixVar H D p.1 p.2.1 p.2.2 : ℕ) : ℤ) := by
          ext v
          rw [List.mem_toFinset, hsc, Finset.mem_image]
          constructor
          · rintro ⟨p, hp, e⟩; exact ⟨p, hp, e.symm⟩
          · rintro ⟨p, hp, e⟩; exact ⟨p, hp, e.symm⟩
        rw [this, Finset.card_image_of_injOn]
        rintro ⟨c, y, w⟩ hp ⟨c', y', w'⟩ hp' e
        have e : ((pixVar H D c y w : ℕ) : ℤ) = (pixVar H D c' y' w' : ℕ) := e
        obtain ⟨⟨_, hy, hw⟩, _⟩ := mem_kept.1 hp
        obtain ⟨⟨_, hy', hw'⟩, _⟩ := mem_kept.1 hp'
        obtain ⟨rfl, rfl, rfl⟩ := pixVar_inj hy hw hy' hw' (by exact_mod_cast e)
        rfl
      have hF' : F m' = 1 := by
        have hle : (den m').length ≤ 1 := by
          rw [← a5.length_eq]
          refine (List.length_filter_le _ _).trans ?_
          rw [den_length, hF]
        have hpos : 0 < (den m').length := by
          obtain ⟨p, hp⟩ := Finset.nonempty_iff_ne_empty.2 hk
          obtain ⟨u, hu, _⟩ := ((scope_facts a1).2.2.1 _).1 ((hsc _).2 ⟨p, hp, rfl⟩)
          exact List.length_pos_of_mem hu
        rw [den_length] at hle hpos
        omega
      refine ⟨m', a1, a2, hF', a3, hsc, ?_, ?_⟩
      · intro x L L' hL' hL ch hch r hr
        have hrow : Circ.logLik W.module (nanOut M x) = .ok fun f ch r => featAt (den W.module) f (nanOut M x) r ch := by
          simp [Circ.logLik, hT]
        have key := (C12_marginalize_log_likelihood_partial M prune h hal hfin hne hF e1 x hT hrow hL' hch hr).2.2
        rw [key]
        simp only [Circ.logLik, hT, Except.ok.injEq] at hL
        rw [← hL]
        refine featAt_local h hal (by omega) hch fun v hv => ?_
        have hvq := (mem_scope_iff h v).2 ⟨0, by omega, hv⟩
        have := hin v hvq
        unfold nanOut
        by_cases hvM : v ∈ M
        · rw [if_pos hvM, if_neg (fun hc => (this.2 hc) hvM)]
        · rw [if_neg hvM, if_pos (this.1 hvM)]
      · unfold marginalize
        rw [if_pos hsz, hM]
        simp only [e1]
        unfold mkWrap
        rw [hlen, s.c, s.h, s.w]
        have hcomm : ((H : ℤ) - hs.length) * (D - ws.length) * (C - cs.length) =
          (C - cs.length) * (H - hs.length) * (D - ws.length) := by ring
        rw [hcomm]
        by_cases hc : ((kept C H D cs hs ws).card : ℤ) = (C - cs.length) * (H - hs.length) * (D - ws.length)
        · rw [if_neg (not_not.2 hc), if_pos hc]
        · rw [if_pos hc, if_neg hc]

/-- Different valid indices: no position is meant twice. -/
def Distinct (n : ℕ) (idx : List ℤ) : Prop := (∀ i ∈ idx, InAxis n i) ∧ (idx.map (norm n)).Nodup

theorem norm_lt {n : ℕ} {i : ℤ} (hi : InAxis n i) : norm n i < n := by
  unfold InAxis at hi
  unfold norm
  split_ifs <;> omega

theorem Distinct.card {n : ℕ} {idx : List ℤ} (h : Distinct n idx) :
    ((idx.map (norm n)).toFinset ⊆ Finset.range n) ∧ (Finset.range n \ (idx.map (norm n)).toFinset).card = n - idx.length ∧
      idx.length ≤ n := by
  have hsub : (idx.map (norm n)).toFinset ⊆ Finset.range n := by
    intro k hk
    obtain ⟨i, hi, rfl⟩ := List.mem_map.1 (List.mem_toFinset.1 hk)
    exact Finset.mem_range.2 (norm_lt (h.1 i hi))
  have hc : (idx.map (norm n)).toFinset.card = idx.length := by
    rw [List.toFinset_card_of_nodup h.2, List.length_map]
  refine ⟨hsub, by rw [Finset.card_sdiff_of_subset hsub, hc, Finset.card_range], ?_⟩
  have := Finset.card_le_card hsub
  rwa [hc, Finset.card_range] at this

theorem kept_card {C H D : ℕ} {cs hs ws : List ℤ} (h1 : Distinct C cs) (h2 : Distinct H hs) (h3 : Distinct D ws) :
    (kept C H D cs hs ws).card = (C - cs.length) * (H - hs.length) * (D - ws.length) := by
  have : kept C H D cs hs ws = (Finset.range C \ (cs.map (norm C)).toFinset) ×ˢ
      (Finset.range H \ (hs.map (norm H)).toFinset) ×ˢ (Finset.range D \ (ws.map (norm D)).toFinset) := by
    ext ⟨c, y, w⟩
    rw [mem_kept]
    simp only [Removed, Finset.mem_product, Finset.mem_sdiff, Finset.mem_range, List.mem_toFinset, List.mem_map]
    generalize (∃ i ∈ cs, norm C i = c) = A1
    generalize (∃ i ∈ hs, norm H i = y) = A2
    generalize (∃ i ∈ ws, norm D i = w) = A3
    tauto
  rw [this, Finset.card_product, Finset.card_product, h1.card.2.1, h2.card.2.1, h3.card.2.1, Nat.mul_assoc]

/-- **C83, marginalised wrappers.** For different valid indices that leave some pixel, the result is a wrapper with as many
channels, rows and columns as remain. -/
theorem C83_marginalize_sizes {W : Wrap} {C H D : ℕ} (s : Sized W C H D) (h : Accepted W.module) (hal : Aligned W.module)
    (hfin : FiniteLogits W.module) (hne : LeavesNonempty W.module) (hF : F W.module = 1) {T : ℕ}
    (hT : tensorR W.module = some T) (ho : InOrder W.module (C * H * D)) {cs hs ws : List ℤ} (prune : Bool)
    (h1 : Distinct C cs) (h2 : Distinct H hs) (h3 : Distinct D ws) (hl1 : cs.length < C) (hl2 : hs.length < H)
    (hl3 : ws.length < D) : ∃ W', marginalize W cs hs ws prune = .ok (some W') ∧
      Sized W' (C - cs.length) (H - hs.length) (D - ws.length) ∧ mkWrap W'.module W'.c W'.h W'.w = .ok W' ∧
      Accepted W'.module ∧ F W'.module = 1 ∧ tensorR W'.module = some T ∧ ∀ v : ℤ, v ∈ (scope W'.module).query ↔
        ∃ c < C, ∃ y < H, ∃ w < D, ¬ Removed C H D cs hs ws c y w ∧ v = (pixVar H D c y w : ℕ) := by
  have hcard := kept_card h1 h2 h3
  have hk : kept C H D cs hs ws ≠ ∅ := by
    intro e
    rw [e, Finset.card_empty] at hcard
    have : 0 < (C - cs.length) * (H - hs.length) * (D - ws.length) :=
      Nat.mul_pos (Nat.mul_pos (by omega) (by omega)) (by omega)
    omega
  obtain ⟨m', a1, a2, a3, a4, a5, _, a7⟩ :=
    ((C83_marginalize_partial s h hal hfin hne hF hT ho cs hs ws prune).2 h1.1 h2.1 h3.1).2 hk
  have hc : ((C : ℤ) - cs.length) = ((C - cs.length : ℕ) : ℤ) := by omega
  have hh : ((H : ℤ) - hs.length) = ((H - hs.length : ℕ) : ℤ) := by omega
  have hw : ((D : ℤ) - ws.length) = ((D - ws.length : ℕ) : ℤ) := by omega
  have hsc : ∀ v : ℤ, v ∈ (scope m').query ↔
        ∃ c < C, ∃ y < H, ∃ w < D, ¬ Removed C H D cs hs ws c y w ∧ v = (pixVar H D c y w : ℕ) := by
    intro v
    rw [a5]
    constructor
    · rintro ⟨⟨c, y, w⟩, hp, e⟩
      obtain ⟨⟨b1, b2, b3⟩, b4⟩ := mem_kept.1 hp
      exact ⟨c, b1, y, b2, w, b3, b4, e⟩
    · rintro ⟨c, b1, y, b2, w, b3, b4, e⟩
      exact ⟨(c, y, w), mem_kept.2 ⟨⟨b1, b2, b3⟩, b4⟩, e⟩
  have e7 : marginalize W cs hs ws prune = .ok (some ⟨m', C - cs.length, H - hs.length, D - ws.length⟩) := by
    rw [a7, if_pos]
    rw [hcard, hc, hh, hw]
    push_cast
    ring
  refine ⟨_, e7, ⟨hc, hh, hw⟩, ?_, a1, a3, a4, hsc⟩
  unfold marginalize at e7
  split at e7
  · split at e7
    · cases e7
    · split at e7
      · cases e7
      · cases e7
      · split at e7
        · cases e7
        · rename_i hmk
          simp only [Except.ok.injEq, Option.some.injEq] at e7
          subst e7
          unfold mkWrap at hmk ⊢
          split at hmk
          · cases hmk
          · rename_i hno
            simp only [Except.ok.injEq, Wrap.mk.injEq] at hmk
            obtain ⟨rfl, e1, e2, e3⟩ := hmk
            dsimp only
            rw [← e1, ← e2, ← e3, if_neg hno]
  · cases e7

/-- **C83, marginalised wrappers cannot be evaluated.** If some integrated pixel comes before a remaining one in row-major
order - always, unless the pixels removed are the last ones -, the wrapper returned by `marginalize` raises an exception on
every tensor whatsoever: its module still reads the columns of the large image. -/
theorem C83_marginalize_unusable {W : Wrap} {C H D : ℕ} (s : Sized W C H D) (h : Accepted W.module)
    (hal : Aligned W.module) (hfin : FiniteLogits W.module) (hne : LeavesNonempty W.module) (hF : F W.module = 1) {T : ℕ}
    (hT : tensorR W.module = some T) (ho : InOrder W.module (C * H * D)) {cs hs ws : List ℤ} (prune : Bool)
    (h1 : Distinct C cs) (h2 : Distinct H hs) (h3 : Distinct D ws) (hl1 : cs.length < C) (hl2 : hs.length < H)
    (hl3 : ws.length < D) {c y w c' y' w' : ℕ} (hb : c < C ∧ y < H ∧ w < D) (hb' : c' < C ∧ y' < H ∧ w' < D)
    (hr : Removed C H D cs hs ws c y w) (hk : ¬ Removed C H D cs hs ws c' y' w')
    (hlt : pixVar H D c y w < pixVar H D c' y' w') :
    ∃ W', marginalize W cs hs ws prune = .ok (some W') ∧ ∀ t, ∃ e, logLik W' t = .error e := by
  obtain ⟨W', e1, s', hW', a1, a2, a3, hsc⟩ :=
    C83_marginalize_sizes s h hal hfin hne hF hT ho prune h1 h2 h3 hl1 hl2 hl3
  refine ⟨W', e1, fun t => ?_⟩
  unfold logLik
  split
  · exact ⟨_, rfl⟩
  rename_i b dims hs'
  by_cases hd : (dims.map fun n : ℕ => (n : ℤ)) ≠ [W'.c, W'.h, W'.w]
  · rw [if_pos hd]; exact ⟨_, rfl⟩
  rw [if_neg hd]
  push Not at hd
  have hdims : dims = [C - cs.length, H - hs.length, D - ws.length] := by
    rw [s'.c, s'.h, s'.w] at hd
    exact (List.map_injective_iff.2 Nat.cast_injective)
      (show _ = [C - cs.length, H - hs.length, D - ws.length].map fun n : ℕ => (n : ℤ) from hd)
  rw [hdims] at hs'
  rw [s'.flatten hs']
  dsimp only
  unfold llFlat
  rw [if_pos]
  · exact ⟨_, rfl⟩
  by_contra hno
  push Not at hno
  have hlen : (scope W'.module).query.length = (C - cs.length) * (H - hs.length) * (D - ws.length) := by
    unfold mkWrap at hW'
    rw [s'.c, s'.h, s'.w] at hW'
    split at hW'
    · cases hW'
    · rename_i hh
      push Not at hh
      have : (scope W'.module).query.length = (H - hs.length) * (D - ws.length) * (C - cs.length) := by exact_mod_cast hh
      rw [this]; ring
  have hp : Pixels W'.module ((C - cs.length) * (H - hs.length) * (D - ws.length)) :=
    pixels_of_lt a1 hlen fun v hv => by simpa using hno v hv
  have k1 := ((hp _).1 ((hsc _).2 ⟨c', hb'.1, y', hb'.2.1, w', hb'.2.2, hk, rfl⟩)).2
  have k2 : ((pixVar H D c y w : ℕ) : ℤ) ∈ (scope W'.module).query :=
    (hp _).2 ⟨Int.natCast_nonneg _, lt_trans (by exact_mod_cast hlt) k1⟩
  obtain ⟨c2, b1, y2, b2, w2, b3, b4, e⟩ := (hsc _).1 k2
  obtain ⟨rfl, rfl, rfl⟩ := pixVar_inj hb.2.1 hb.2.2 b2 b3 (by exact_mod_cast e)
  exact b4 hr

/-- **C83, marginalising the last pixels.** If all integrated pixels come after the remaining ones (for one channel: the last
rows), the wrapper returned by `marginalize` can be evaluated, and its log-likelihood of a small image is the log-likelihood
of the original with the other pixels missing. -/
theorem C83_marginalize_last {W : Wrap} {C H D : ℕ} (s : Sized W C H D) (h : Accepted W.module) (hal : Aligned W.module)
    (hfin : FiniteLogits W.module) (hne : LeavesNonempty W.module) (hF : F W.module = 1) {T : ℕ}
    (hT : tensorR W.module = some T) (ho : InOrder W.module (C * H * D)) {cs hs ws : List ℤ} (prune : Bool)
    (h1 : Distinct C cs) (h2 : Distinct H hs) (h3 : Distinct D ws) (hl1 : cs.length < C) (hl2 : hs.length < H)
    (hl3 : ws.length < D)
    (hlast : ∀ c < C, ∀ y < H, ∀ w < D, ∀ c' < C, ∀ y' < H, ∀ w' < D, Removed C H D cs hs ws c y w →
      ¬ Removed C H D cs hs ws c' y' w' → pixVar H D c' y' w' < pixVar H D c y w) :
    ∃ W', marginalize W cs hs ws prune = .ok (some W') ∧
      ∀ b (t : Tensor), t.shape = [b, C - cs.length, H - hs.length, D - ws.length] → ∃ L, logLik W' t = .ok L ∧
        ∀ i x, Shows (H - hs.length) (D - ws.length) (C - cs.length) t i x →
          (∀ v : ℤ, ((C - cs.length) * (H - hs.length) * (D - ws.length) : ℕ) ≤ v → x v = none) →
          ∀ Lo, Circ.logLik W.module x = .ok Lo → ∀ ch < Circ.C W.module, ∀ r < T, L i 0 ch r = Lo 0 ch r := by
  classical
  obtain ⟨W', e1, s', hW', a1, a2, a3, hsc⟩ :=
    C83_marginalize_sizes s h hal hfin hne hF hT ho prune h1 h2 h3 hl1 hl2 hl3
  have hk : kept C H D cs hs ws ≠ ∅ := by
    intro e
    have hcard := kept_card h1 h2 h3
    rw [e, Finset.card_empty] at hcard
    have : 0 < (C - cs.length) * (H - hs.length) * (D - ws.length) :=
      Nat.mul_pos (Nat.mul_pos (by omega) (by omega)) (by omega)
    omega
  obtain ⟨m', _, b2, b3, b4, b5, b6, b7⟩ :=
    ((C83_marginalize_partial s h hal hfin hne hF hT ho cs hs ws prune).2 h1.1 h2.1 h3.1).2 hk
  have hmm : W'.module = m' := by
    rw [e1] at b7
    split at b7
    · simp only [Except.ok.injEq, Option.some.injEq] at b7
      rw [b7]
    · cases b7
  have hlen : (scope W'.module).query.length = (C - cs.length) * (H - hs.length) * (D - ws.length) := by
    unfold mkWrap at hW'
    rw [s'.c, s'.h, s'.w] at hW'
    split at hW'
    · cases hW'
    · rename_i hh
      push Not at hh
      have : (scope W'.module).query.length = (H - hs.length) * (D - ws.length) * (C - cs.length) := by exact_mod_cast hh
      rw [this]; ring
  refine ⟨W', e1, ?_⟩
  generalize hn' : (C - cs.length) * (H - hs.length) * (D - ws.length) = n' at *
  have hp : Pixels W'.module n' := by
    refine pixels_of_lt a1 hlen fun v hv => ?_
    by_contra hge
    obtain ⟨c', d1, y', d2, w', d3, d4, rfl⟩ := (hsc v).1 hv
    have hsub : (Finset.range (pixVar H D c' y' w' + 1)).image (fun j : ℕ => (j : ℤ)) ⊆ (scope W'.module).query.toFinset := by
      intro u hu
      obtain ⟨j, hj, rfl⟩ := Finset.mem_image.1 hu
      have hj' := Finset.mem_range.1 hj
      obtain ⟨c, y, w, f1, f2, f3, e⟩ := pixel_exists (show j < C * H * D by have := pixVar_lt d1 d2 d3; omega)
      rw [List.mem_toFinset, hsc]
      refine ⟨c, f1, y, f2, w, f3, fun hr => ?_, by rw [e]⟩
      have := hlast c f1 y f2 w f3 c' d1 y' d2 w' d3 hr d4
      omega
    have := Finset.card_le_card hsub
    rw [Finset.card_image_of_injective _ Nat.cast_injective, Finset.card_range,
      List.toFinset_card_of_nodup (scope_facts a1).1.query_nodup, hlen] at this
    have hge' : ((pixVar H D c' y' w' : ℕ) : ℤ) < n' := by exact_mod_cast this
    exact hge hge'
  intro b t ht
  have hll : logLik W' t = llFlat W'.module
      ⟨[b, n'], fun idx => t.cell (idx.getD 0 0 :: pixelOf (H - hs.length) (D - ws.length) (idx.getD 1 0))⟩ := by
    unfold logLik
    rw [s'.flatten ht, ht, hn']
    simp only [s'.c, s'.h, s'.w, List.map_cons, List.map_nil, ne_eq, not_true_eq_false, if_false]
  rw [hll]
  unfold llFlat
  rw [if_neg (by
    push Not
    intro v hv
    exact ((hp v).1 hv).2), a3]
  refine ⟨_, rfl, fun i x hx hout Lo hLo ch hch r hr => ?_⟩
  simp only [Circ.logLik, hT, Except.ok.injEq] at hLo
  rw [← hLo, hmm]
  refine (b6 _ _ _ (by unfold Circ.logLik; rw [b4]) (by unfold Circ.logLik; rw [hT]) ch hch r hr).trans ?_
  refine featAt_local h hal (by omega) hch fun v hv => ?_
  have hq := (ho.pixels v).1 ((mem_scope_iff h v).2 ⟨0, by omega, hv⟩)
  have hiff : (∃ p ∈ kept C H D cs hs ws, v = (pixVar H D p.1 p.2.1 p.2.2 : ℕ)) ↔ 0 ≤ v ∧ v < n' := by
    rw [← b5, ← hmm]; exact hp v
  by_cases hv' : v < n'
  · rw [if_pos (hiff.2 ⟨hq.1, hv'⟩)]
    have hv2 : v < (((C - cs.length) * (H - hs.length) * (D - ws.length) : ℕ) : ℤ) := by rw [hn']; exact hv'
    have := rowOf_flat (b := b) hx hq.1 hv2
    rw [hn'] at this
    exact this
  · rw [if_neg fun hh => hv' (hiff.1 hh).2]
    exact (hout v (not_lt.1 hv')).symm

end Verif.Image

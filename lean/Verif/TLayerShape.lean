import Verif.TLayerInt
/-
C84: accepted shapes, repeated operands, constructors, relations between the layers.
-/
namespace Verif.TL

open Finset (range)

/-! ### Accepted shapes -/

/-- Two sizes fit: they are equal or one of them is one. -/
def Fit (a b : ℕ) : Prop := a = b ∨ a = 1 ∨ b = 1

theorem fit_iff {a b : ℕ} : Fit a b ↔ ∃ n, bc a b = .ok n := by
  simp only [bc_ok]
  exact ⟨fun h => ⟨_, h, rfl⟩, fun ⟨_, h, _⟩ => h⟩

theorem bc_of_not_fit {a b : ℕ} (h : ¬ Fit a b) : bc a b = .error .runtimeError :=
  bc_error fun n hn => h hn.1

/-- The layer has positive sizes and its mask, if any, has shape `(F, H)`. -/
def Layer.Valid : Layer → Prop
  | .tucker F I O _ => 0 < F ∧ 0 < I ∧ 0 < O
  | .collapsed F H I O mask _ => 0 < F ∧ 0 < H ∧ 0 < I ∧ 0 < O ∧ MaskFits mask F H
  | .uncollapsed F H I R O mask _ _ => 0 < F ∧ 0 < H ∧ 0 < I ∧ 0 < R ∧ 0 < O ∧ MaskFits mask F H
  | .shared F H I O _ => 0 < F ∧ 0 < H ∧ 0 < I ∧ 0 < O
  | .mixing F H K mask _ => 0 < F ∧ 0 < H ∧ 0 < K ∧ MaskFits mask F H

/-- The dimension a layer takes maxima over is not empty (and a Tucker layer finds two children). -/
def Enough : Layer → T3 → Prop
  | .tucker .., x => 2 ≤ x.b ∧ 0 < x.c
  | .mixing .., x => 0 < x.b
  | _, x => 0 < x.c

/-- The sizes of the input fit those of the layer. -/
def Sizes : Layer → T3 → Prop
  | .tucker F I _ _, x => Fit F x.a ∧ Fit I x.c
  | .collapsed F H I _ _ _, x => Fit F x.a ∧ Fit H x.b ∧ Fit I x.c
  | .uncollapsed F H I _ _ _ _ _, x => Fit F x.a ∧ Fit H x.b ∧ Fit I x.c
  | .shared _ H I _ _, x => Fit H x.b ∧ Fit I x.c
  | .mixing F H K _ _, x => Fit F x.a ∧ Fit H x.b ∧ Fit K x.c

theorem dim_idem {a b n : ℕ} (h : Dim a b n) : bc a n = .ok n := by
  obtain ⟨h, rfl⟩ := h
  rw [bc_ok]
  constructor
  · split <;> omega
  · split <;> omega

theorem inner_shape {x : T3} {wF wH I O : ℕ} {W : ℕ → ℕ → ℕ → ℕ → ℝ} (hK : 0 < x.c) :
    (∃ y, inner x wF wH I O W = .ok y ∧ Fit wF x.a ∧ Fit wH x.b ∧ Fit I x.c ∧ Dim wF x.a y.a ∧ Dim wH x.b y.b ∧ y.c = O) ∨
      inner x wF wH I O W = .error .runtimeError ∧ ¬ (Fit wF x.a ∧ Fit wH x.b ∧ Fit I x.c) := by
  unfold inner
  rw [if_neg hK.ne']
  rcases bc_cases wF x.a with ⟨n, e, h⟩ | ⟨e, h⟩ <;> rcases bc_cases wH x.b with ⟨n', e', h'⟩ | ⟨e', h'⟩ <;>
    rcases bc_cases I x.c with ⟨n'', e'', h''⟩ | ⟨e'', h''⟩ <;> rw [e, e', e'']
  · exact .inl ⟨_, rfl, h.1, h'.1, h''.1, h, h', rfl⟩
  · exact .inr ⟨rfl, fun H => h'' _ ⟨H.2.2, rfl⟩⟩
  · exact .inr ⟨rfl, fun H => h' _ ⟨H.2.1, rfl⟩⟩
  · exact .inr ⟨rfl, fun H => h' _ ⟨H.2.1, rfl⟩⟩
  all_goals exact .inr ⟨rfl, fun H => h _ ⟨H.1, rfl⟩⟩

theorem withMask_shape {g : Bool → Num → Num} {y : T3} {m : Mask} {a b : ℕ} (ha : Dim m.a a y.a) (hb : Dim m.b b y.b) :
    ∃ z, withMask g y m = .ok z ∧ z.a = y.a ∧ z.b = y.b ∧ z.c = y.c := by
  unfold withMask
  rw [dim_idem ha, dim_idem hb]
  exact ⟨_, rfl, rfl, rfl, rfl⟩

theorem outStep_shape {x : T2} {F R O a : ℕ} {W : ℕ → ℕ → ℕ → ℝ} (hb : x.b = R) (hR : 0 < R) (ha : Dim F a x.a) :
    ∃ y, outStep x F R O W = .ok y ∧ y.a = x.a ∧ y.b = O := by
  subst hb
  unfold outStep
  rw [if_neg hR.ne', dim_idem ha, bc_self]
  exact ⟨_, rfl, rfl, rfl⟩

/-- **C84, accepted inputs.** A layer with positive sizes evaluates exactly the inputs whose number of folds, number of children and
number of units equal its own, or are one, or meet a one on the side of the layer (then the entries are repeated). A Tucker layer
accepts any number of children from two on; a shared layer any number of folds. Otherwise it raises: an IndexError if the dimension of
a maximum is empty (or a Tucker layer finds fewer than two children), else a RuntimeError. -/
theorem C84_accepts {L : Layer} (hL : L.Valid) (x : T3) : (Enough L x ∧ Sizes L x → ∃ y, forward L x = .ok y) ∧
    (¬ Enough L x → forward L x = .error .indexError) ∧
    (Enough L x → ¬ Sizes L x → forward L x = .error .runtimeError) := by
  cases L with
  | tucker F I O W =>
    obtain ⟨hF, hI, hO⟩ := hL
    simp only [Enough, Sizes]
    have hs : forward (.tucker F I O W) x =
        if x.b < 2 then .error .indexError else evalTucker (child x 0) (child x 1) F I O W := rfl
    rw [hs]
    refine ⟨?_, ?_, ?_⟩
    · rintro ⟨⟨h2, hc⟩, h3, h4⟩
      rw [if_neg (by omega)]
      unfold evalTucker child
      dsimp only
      rw [if_neg (by omega)]
      obtain ⟨n, e⟩ := fit_iff.1 h3
      obtain ⟨n', e'⟩ := fit_iff.1 h4
      simp only [bc_self, e, e']
      exact ⟨_, rfl⟩
    · intro h
      split
      · rfl
      · next h2 =>
        unfold evalTucker child
        dsimp only
        rw [if_pos (by omega)]
    · rintro ⟨h2, hc⟩ h
      rw [if_neg (by omega)]
      unfold evalTucker child
      dsimp only
      rw [if_neg (by omega)]
      rw [bc_self]
      dsimp only
      by_cases h3 : Fit F x.a
      · obtain ⟨n, e⟩ := fit_iff.1 h3
        have h4 : ¬ Fit I x.c := fun h4 => h ⟨h3, h4⟩
        rw [e, bc_of_not_fit h4]
      · rw [bc_of_not_fit h3]
  | collapsed F H I O mask W =>
    obtain ⟨hF, hH, hI, hO, hm⟩ := hL
    simp only [Enough, Sizes]
    have hs : forward (.collapsed F H I O mask W) x = evalCollapsed x F H I O W mask := rfl
    rw [hs]
    unfold evalCollapsed
    refine ⟨?_, ?_, ?_⟩
    · rintro ⟨hc, hf⟩
      rcases inner_shape (O := O) (W := W) (wF := F) (wH := H) (I := I) hc with ⟨y, e, -, -, -, ha, hb, -⟩ | ⟨-, hn⟩
      · rw [e]
        cases mask with
        | none => exact ⟨_, rfl⟩
        | some m =>
          obtain ⟨h1, h2⟩ := hm m rfl
          obtain ⟨z, e', -⟩ := withMask_shape (g := whereMask) (h1.symm ▸ ha) (h2.symm ▸ hb)
          dsimp only
          rw [e']
          exact ⟨_, rfl⟩
      · exact absurd hf hn
    · intro h
      unfold inner
      rw [if_pos (by omega)]
    · intro hc h
      rcases inner_shape (O := O) (W := W) (wF := F) (wH := H) (I := I) hc with ⟨y, e, h1, h2, h3, -⟩ | ⟨e, -⟩
      · exact absurd ⟨h1, h2, h3⟩ h
      · rw [e]
  | uncollapsed F H I R O mask Win Wout =>
    obtain ⟨hF, hH, hI, hR, hO, hm⟩ := hL
    simp only [Enough, Sizes]
    unfold forward
    dsimp only
    refine ⟨?_, ?_, ?_⟩
    · rintro ⟨hc, hf⟩
      rcases inner_shape (O := R) (W := Win) (wF := F) (wH := H) (I := I) hc with ⟨y, e, -, -, -, ha, hb, hR'⟩ | ⟨-, hn⟩
      · rw [e]
        cases mask with
        | none =>
          obtain ⟨w, e', -⟩ := outStep_shape (x := sumH y) (O := O) (W := Wout) hR' hR ha
          exact ⟨w, e'⟩
        | some m =>
          obtain ⟨h1, h2⟩ := hm m rfl
          obtain ⟨z, e', za, zb, zc⟩ := withMask_shape (g := timesMask) (h1.symm ▸ ha) (h2.symm ▸ hb)
          dsimp only
          rw [e']
          obtain ⟨w, e', -⟩ := outStep_shape (x := sumH z) (O := O) (W := Wout) (zc.trans hR') hR (a := x.a)
            (show Dim F x.a z.a from za.symm ▸ ha)
          exact ⟨w, e'⟩
      · exact absurd hf hn
    · intro h
      unfold inner
      rw [if_pos (by omega)]
    · intro hc h
      rcases inner_shape (O := R) (W := Win) (wF := F) (wH := H) (I := I) hc with ⟨y, e, h1, h2, h3, -⟩ | ⟨e, -⟩
      · exact absurd ⟨h1, h2, h3⟩ h
      · rw [e]
  | shared F H I O W =>
    obtain ⟨hF, hH, hI, hO⟩ := hL
    simp only [Enough, Sizes]
    unfold forward
    dsimp only
    refine ⟨?_, ?_, ?_⟩
    · rintro ⟨hc, hf⟩
      rcases inner_shape (O := O) (W := fun _ => W) (wF := 1) (wH := H) (I := I) hc with ⟨y, e, -⟩ | ⟨-, hn⟩
      · rw [e]
        exact ⟨_, rfl⟩
      · exact absurd ⟨.inr (.inl rfl), hf⟩ hn
    · intro h
      unfold inner
      rw [if_pos (by omega)]
    · intro hc h
      rcases inner_shape (O := O) (W := fun _ => W) (wF := 1) (wH := H) (I := I) hc with ⟨y, e, h1, h2, h3, -⟩ | ⟨e, -⟩
      · exact absurd ⟨h2, h3⟩ h
      · rw [e]
  | mixing F H K mask W =>
    obtain ⟨hF, hH, hK, hm⟩ := hL
    simp only [Enough, Sizes]
    have hs : forward (.mixing F H K mask W) x = evalMixing x F H K W mask := rfl
    rw [hs]
    unfold evalMixing
    refine ⟨?_, ?_, ?_⟩
    · rintro ⟨hb, hf⟩
      rw [if_neg hb.ne']
      obtain ⟨n, e⟩ := fit_iff.1 hf.1
      obtain ⟨n', e'⟩ := fit_iff.1 hf.2.1
      obtain ⟨n'', e''⟩ := fit_iff.1 hf.2.2
      cases mask with
      | none =>
        dsimp only
        rw [e, e', e'']
        exact ⟨_, rfl⟩
      | some m =>
        obtain ⟨h1, h2⟩ := hm m rfl
        dsimp only
        rw [h1, h2, e, e']
        dsimp only
        rw [dim_idem (bc_ok.1 e), dim_idem (bc_ok.1 e'), e'']
        exact ⟨_, rfl⟩
    · intro h
      rw [if_pos (by omega)]
    · intro hb h
      rw [if_neg hb.ne']
      cases mask with
      | none =>
        dsimp only
        rcases bc_cases F x.a with ⟨n, e, h1⟩ | ⟨e, h1⟩ <;> rcases bc_cases H x.b with ⟨n', e', h2⟩ | ⟨e', h2⟩ <;>
          rcases bc_cases K x.c with ⟨n'', e'', h3⟩ | ⟨e'', h3⟩ <;> rw [e, e', e'']
        exact absurd ⟨h1.1, h2.1, h3.1⟩ h
      | some m =>
        obtain ⟨h1, h2⟩ := hm m rfl
        dsimp only
        rw [h1, h2]
        rcases bc_cases F x.a with ⟨n, e, h1⟩ | ⟨e, h1⟩
        · rcases bc_cases H x.b with ⟨n', e', h2⟩ | ⟨e', h2⟩
          · rw [e, e']
            dsimp only
            rw [dim_idem h1, dim_idem h2]
            rcases bc_cases K x.c with ⟨n'', e'', h3⟩ | ⟨e'', h3⟩
            · exact absurd ⟨h1.1, h2.1, h3.1⟩ h
            · rw [e'']
          · rw [e, e']
        · rw [e]

/-! ### Constructors -/

/-- The layers documented for `CPLayer`. -/
def wants (collapsed shared : Bool) (L : Layer) : Prop :=
  match collapsed, shared, L with
  | true, true, .shared .. => True
  | true, false, .collapsed .. => True
  | false, false, .uncollapsed .. => True
  | _, _, _ => False

/-- The number of folds, children, input units and output units of a layer (a Tucker layer has two children). -/
def Layer.dims : Layer → ℕ × ℕ × ℕ × ℕ
  | .tucker F I O _ => (F, 2, I, O)
  | .collapsed F H I O _ _ => (F, H, I, O)
  | .uncollapsed F H I _ O _ _ _ => (F, H, I, O)
  | .shared F H I O _ => (F, H, I, O)
  | .mixing F H K _ _ => (F, H, K, K)

/-- All four sizes are positive. -/
def Args.Pos (A : Args) : Prop := 0 < A.inp ∧ 0 < A.out ∧ 0 < A.arity ∧ 0 < A.folds

theorem check_iff (A : Args) : (check A = .ok () ∧ A.Pos) ∨ (check A = .error .valueError ∧ ¬ A.Pos) := by
  unfold check Args.Pos
  split
  · exact .inr ⟨rfl, by omega⟩
  · split
    · exact .inr ⟨rfl, by omega⟩
    · split
      · exact .inr ⟨rfl, by omega⟩
      · split
        · exact .inr ⟨rfl, by omega⟩
        · exact .inl ⟨rfl, by omega⟩

/-- The sizes asked for. -/
def Args.dims (A : Args) : ℕ × ℕ × ℕ × ℕ := (A.folds.toNat, A.arity.toNat, A.inp.toNat, A.out.toNat)

/-- **C84, constructors.** The constructors accept exactly: positive sizes; for Tucker also arity 2 and no mask; for uncollapsed CP
also a positive rank; for mixing also as many output as input units. They return a layer of the requested sizes, and otherwise
raise a ValueError (a NotImplementedError for the arity of a Tucker layer). -/
theorem C84_constructors (A : Args) (rank : ℤ) (u : ℕ → ℕ → ℕ → ℕ → ℝ) (u' : ℕ → ℕ → ℕ → ℝ) :
    ((∃ W, newTucker A u = .ok (.tucker A.folds.toNat A.inp.toNat A.out.toNat W)) ∧ A.Pos ∧ A.arity = 2 ∧ A.mask = none ∨
      newTucker A u = .error .notImplemented ∧ A.arity ≠ 2 ∨
      newTucker A u = .error .valueError ∧ A.arity = 2 ∧ ¬ (A.Pos ∧ A.mask = none)) ∧
    ((∃ W, newCollapsed A u = .ok (.collapsed A.folds.toNat A.arity.toNat A.inp.toNat A.out.toNat A.mask W)) ∧ A.Pos ∨
      newCollapsed A u = .error .valueError ∧ ¬ A.Pos) ∧
    ((∃ W W', newUncollapsed A rank u u' =
        .ok (.uncollapsed A.folds.toNat A.arity.toNat A.inp.toNat rank.toNat A.out.toNat A.mask W W')) ∧ A.Pos ∧ 0 < rank ∨
      newUncollapsed A rank u u' = .error .valueError ∧ ¬ (A.Pos ∧ 0 < rank)) ∧
    ((∃ W, newShared A u' = .ok (.shared A.folds.toNat A.arity.toNat A.inp.toNat A.out.toNat W)) ∧ A.Pos ∨
      newShared A u' = .error .valueError ∧ ¬ A.Pos) ∧
    ((∃ W, newMixing A u' = .ok (.mixing A.folds.toNat A.arity.toNat A.out.toNat A.mask W)) ∧ A.Pos ∧ A.inp = A.out ∨
      newMixing A u' = .error .valueError ∧ ¬ (A.Pos ∧ A.inp = A.out)) := by
  have h := check_iff A
  refine ⟨?_, ?_, ?_, ?_, ?_⟩
  · unfold newTucker
    by_cases h2 : A.arity = 2
    · rw [if_neg (not_not.2 h2)]
      cases hm : A.mask with
      | none =>
        rcases h with ⟨e, hp⟩ | ⟨e, hp⟩
        · rw [if_neg (by simp), e]
          exact .inl ⟨⟨u, rfl⟩, hp, h2, rfl⟩
        · rw [if_neg (by simp), e]
          exact .inr (.inr ⟨rfl, h2, fun H => hp H.1⟩)
      | some m =>
        rw [if_pos (show (some m).isSome = true from rfl)]
        exact .inr (.inr ⟨rfl, h2, fun H => Option.some_ne_none _ H.2⟩)
    · rw [if_pos h2]
      exact .inr (.inl ⟨rfl, h2⟩)
  · unfold newCollapsed
    rcases h with ⟨e, hp⟩ | ⟨e, hp⟩ <;> rw [e]
    · exact .inl ⟨⟨u, rfl⟩, hp⟩
    · exact .inr ⟨rfl, hp⟩
  · unfold newUncollapsed
    by_cases hr : rank ≤ 0
    · rw [if_pos hr]
      exact .inr ⟨rfl, fun H => absurd H.2 (not_lt.2 hr)⟩
    · rw [if_neg hr]
      rcases h with ⟨e, hp⟩ | ⟨e, hp⟩ <;> rw [e]
      · exact .inl ⟨⟨u, u', rfl⟩, hp, not_le.1 hr⟩
      · exact .inr ⟨rfl, fun H => hp H.1⟩
  · unfold newShared
    rcases h with ⟨e, hp⟩ | ⟨e, hp⟩ <;> rw [e]
    · exact .inl ⟨⟨u', rfl⟩, hp⟩
    · exact .inr ⟨rfl, hp⟩
  · unfold newMixing
    by_cases he : A.inp = A.out
    · rw [if_neg (not_not.2 he)]
      rcases h with ⟨e, hp⟩ | ⟨e, hp⟩ <;> rw [e]
      · exact .inl ⟨⟨_, rfl⟩, hp, he⟩
      · exact .inr ⟨rfl, fun H => hp H.1⟩
    · rw [if_pos he]
      exact .inr ⟨rfl, fun H => he H.2⟩

/-- **C84, factory.** `CPLayer` builds the requested variant with the requested sizes, or raises: NotImplementedError for shared and
uncollapsed, ValueError for sizes (or, uncollapsed, a rank) that are not positive. -/
theorem C84_factory (A : Args) (rank : ℤ) (collapsed shared : Bool) (u : ℕ → ℕ → ℕ → ℕ → ℝ) (u' : ℕ → ℕ → ℕ → ℝ) :
    (∀ L, newCP A rank collapsed shared u u' = .ok L → wants collapsed shared L ∧ L.dims = A.dims ∧ A.Pos) ∧
    (shared = true → collapsed = false → newCP A rank collapsed shared u u' = .error .notImplemented) ∧
    (¬ (shared = true ∧ collapsed = false) → A.Pos → (collapsed = true ∨ 0 < rank) →
      ∃ L, newCP A rank collapsed shared u u' = .ok L) ∧
    (¬ (shared = true ∧ collapsed = false) → ¬ (A.Pos ∧ (collapsed = true ∨ 0 < rank)) →
      newCP A rank collapsed shared u u' = .error .valueError) := by
  have C := C84_constructors A rank u u'
  have C' := (C84_constructors { A with mask := none } rank u (u 0)).2.2.2.1
  have hP : ({ A with mask := none } : Args).Pos ↔ A.Pos := Iff.rfl
  rw [hP] at C'
  cases collapsed <;> cases shared
  · have e : newCP A rank false false u u' = newUncollapsed A rank u u' := rfl
    rw [e]
    obtain ⟨-, -, h, -⟩ := C
    rcases h with ⟨⟨W, W', h⟩, hp⟩ | ⟨h, hp⟩ <;> rw [h]
    · refine ⟨fun L hL => ?_, fun h => absurd h (by decide), fun _ _ _ => ⟨_, rfl⟩, fun _ hn => absurd ⟨hp.1, .inr hp.2⟩ hn⟩
      obtain rfl := Except.ok.inj hL
      exact ⟨trivial, rfl, hp.1⟩
    · exact ⟨fun L hL => by simp at hL, fun h => absurd h (by decide), fun _ h1 h2 => absurd ⟨h1, by simpa using h2⟩ hp,
        fun _ _ => rfl⟩
  · have e : newCP A rank false true u u' = .error .notImplemented := rfl
    rw [e]
    exact ⟨fun L hL => by simp at hL, fun _ _ => rfl, fun h => absurd ⟨rfl, rfl⟩ h, fun h => absurd ⟨rfl, rfl⟩ h⟩
  · have e : newCP A rank true false u u' = newCollapsed A u := rfl
    rw [e]
    obtain ⟨-, h, -⟩ := C
    rcases h with ⟨⟨W, h⟩, hp⟩ | ⟨h, hp⟩ <;> rw [h]
    · refine ⟨fun L hL => ?_, fun h => absurd h (by decide), fun _ _ _ => ⟨_, rfl⟩, fun _ hn => absurd ⟨hp, .inl rfl⟩ hn⟩
      obtain rfl := Except.ok.inj hL
      exact ⟨trivial, rfl, hp⟩
    · exact ⟨fun L hL => by simp at hL, fun h => absurd h (by decide), fun _ h1 _ => absurd h1 hp, fun _ _ => rfl⟩
  · have e : newCP A rank true true u u' = newShared { A with mask := none } (u 0) := rfl
    rw [e]
    rcases C' with ⟨⟨W, h⟩, hp⟩ | ⟨h, hp⟩ <;> rw [h]
    · refine ⟨fun L hL => ?_, fun _ h => absurd h (by decide), fun _ _ _ => ⟨_, rfl⟩, fun _ hn => absurd ⟨hp, .inl rfl⟩ hn⟩
      obtain rfl := Except.ok.inj hL
      exact ⟨trivial, rfl, hp⟩
    · exact ⟨fun L hL => by simp at hL, fun _ h => absurd h (by decide), fun _ h1 _ => absurd h1 hp, fun _ _ => rfl⟩

/-- **C84, initial mixing weights.** The weights of a new mixing layer are positive and sum to one over all children of a fold. -/
theorem C84_mixing_initial {A : Args} {u : ℕ → ℕ → ℕ → ℝ} (hu : ∀ f h k, 0 < u f h k) {F H K : ℕ} {mask : Option Mask}
    {W : ℕ → ℕ → ℕ → ℝ} (hL : newMixing A u = .ok (.mixing F H K mask W)) :
    (∀ f h k, 0 < W f h k) ∧ ∀ f k, ∑ h ∈ range H, W f h k = 1 := by
  unfold newMixing at hL
  split at hL
  · simp at hL
  · rcases check_iff A with ⟨e, hp⟩ | ⟨e, hp⟩ <;> rw [e] at hL
    · simp only [Except.ok.injEq, Layer.mixing.injEq] at hL
      obtain ⟨-, rfl, -, -, rfl⟩ := hL
      have hH : 0 < A.arity.toNat := by
        have := hp.2.2.1
        omega
      have hs : ∀ f k, 0 < ∑ h ∈ range A.arity.toNat, u f h k := fun f k =>
        Finset.sum_pos (fun h _ => hu f h k) ⟨0, Finset.mem_range.2 hH⟩
      exact ⟨fun f h k => div_pos (hu f h k) (hs f k), fun f k => by
        rw [← Finset.sum_div, div_self (hs f k).ne']⟩
    · simp at hL

/-! ### Relations between the layers -/

/-- **C84, shared weights.** A shared layer is the collapsed layer with the same weights in every fold, on every input (NaN and
infinities included) with that number of folds. -/
theorem C84_shared_is_collapsed {F H I O : ℕ} (W : ℕ → ℕ → ℕ → ℝ) (x : T3) (ha : x.a = F) :
    forward (.shared F H I O W) x = forward (.collapsed F H I O none fun _ => W) x := by
  subst ha
  have : inner x 1 H I O (fun _ => W) = inner x x.a H I O fun _ => W := by
    unfold inner
    rw [bc_self, bc_ok.2 (show Dim 1 x.a x.a from ⟨.inr (.inl rfl), by simp⟩)]
  unfold forward evalCollapsed
  dsimp only
  rw [this]

/-- **C84, CP is a Tucker layer of low rank.** On two children with positive probabilities and with positive input weights, the
uncollapsed CP layer of rank `R` and the Tucker layer with the weights `∑ᵣ Win[f,0,i,r] Win[f,1,j,r] Wout[f,r,o]` have the same
output. -/
theorem C84_cp_is_tucker {F I R O : ℕ} (hI : 0 < I) (hR : 0 < R) {Win : ℕ → ℕ → ℕ → ℕ → ℝ} (Wout : ℕ → ℕ → ℕ → ℝ)
    (hW : ∀ f h k r, 0 < Win f h k r) {x : T3} {p : ℕ → ℕ → ℕ → ℝ} (hx : Holds x F 2 I p)
    (hp : ∀ f < F, ∀ h < 2, ∃ k < I, 0 < p f h k) :
    ∃ y z, forward (.uncollapsed F 2 I R O none Win Wout) x = .ok y ∧
      forward (.tucker F I O fun f i j o => ∑ r ∈ range R, Win f 0 i r * Win f 1 j r * Wout f r o) x = .ok z ∧
      y.a = z.a ∧ y.b = z.b ∧ ∀ f < F, ∀ o, y.v f o = z.v f o := by
  obtain ⟨y, e, h1, h2, hy⟩ := C84_uncollapsed (O := O) hI hR none (by simp [MaskFits]) Win Wout hx.1 hx.2.1 hx.2.2.1
  obtain ⟨z, e', k1, k2, hz⟩ := C84_tucker (O := O) hI (fun f i j o => ∑ r ∈ range R, Win f 0 i r * Win f 1 j r * Wout f r o)
    hx.1 hx.2.1.ge hx.2.2.1
  refine ⟨y, z, e, e', h1.trans k1.symm, h2.trans k2.symm, fun f hf o => ?_⟩
  have hg : ∀ h < 2, Good I (x.v f h) := fun h hh => (hx.good hf hh).2 (hp f hf h hh)
  have hpos : ∀ h < 2, ∀ r, 0 < childSum I Win x f h r := by
    intro h hh r
    obtain ⟨k, hk, hpk⟩ := hp f hf h hh
    rw [hx.childSum hf hh]
    exact Finset.sum_pos' (fun k _ => mul_nonneg (hW _ _ _ _).le (hx.2.2.2.1 _ _ _))
      ⟨k, Finset.mem_range.2 hk, mul_pos (hW _ _ _ _) hpk⟩
  rw [hy f hf o, hz f hf o, if_pos, if_pos ⟨hg 0 (by omega), hg 1 (by omega)⟩]
  · congr 1
    simp only [kept, if_true, Finset.prod_range_succ, Finset.prod_range_zero, one_mul, childSum]
    have hr : ∀ r, Wout f r o * ((∑ k ∈ range I, Win f 0 k r * prob (x.v f 0 k)) * ∑ k ∈ range I, Win f 1 k r * prob (x.v f 1 k)) =
        ∑ i ∈ range I, ∑ j ∈ range I, Win f 0 i r * Win f 1 j r * Wout f r o * (prob (x.v f 0 i) * prob (x.v f 1 j)) := by
      intro r
      rw [Finset.sum_mul_sum, Finset.mul_sum]
      refine Finset.sum_congr rfl fun i _ => ?_
      rw [Finset.mul_sum]
      exact Finset.sum_congr rfl fun j _ => by ring
    rw [Finset.sum_congr rfl fun r _ => hr r, Finset.sum_comm]
    refine Finset.sum_congr rfl fun i _ => ?_
    rw [Finset.sum_comm]
    exact Finset.sum_congr rfl fun j _ => by rw [Finset.sum_mul]
  · refine ⟨fun r _ h hh => ⟨hg h hh, (hpos h hh r).le, fun _ => hpos h hh r⟩, 0, hR, ?_⟩
    refine Finset.prod_pos fun h hh => ?_
    simp only [kept, if_true]
    exact hpos h (Finset.mem_range.1 hh) 0

end Verif.TL

import Verif.DslProps

/-!
# C39: grouping of `*` and `+`, normalisation, and the `dsl()` context manager
-/

namespace Verif.Dsl

open Verif Circ Build MeasureTheory

/-! ### Specification -/

/-- Two expressions mean the same to a user: both build or neither does, and the built modules have the same shape,
variables and likelihoods. -/
def SameMeaning (a b : Expr) : Prop :=
  ((∃ c, build a = .ok c) ↔ ∃ c, build b = .ok c) ∧
    ∀ c d, build a = .ok c → build b = .ok d → F c = F d ∧ C c = C d ∧ R c = R d ∧
      (∀ v, v ∈ (scope c).query ↔ v ∈ (scope d).query) ∧ ∀ x, ∀ r < R c, ∀ k < C c, dens c x r k = dens d x r k

/-- Not a `WeightedExpr`. -/
def Expr.Unweighted : Expr → Prop
  | .weighted _ _ => False
  | _ => True

/-- If it is a `ProductExpr` it has at least two factors (all the operators make such ones). -/
def Expr.Formed : Expr → Prop
  | .prod n _ => 2 ≤ n
  | _ => True

/-- All weights of a mixture object are positive (checked by `__post_init__`). -/
def Expr.Pos (e : Expr) : Prop := ∀ l, e.terms = some l → ∀ a ∈ l, 0 < a.1

/-! ### Products of lists -/

/-- Likelihood of all features. -/
noncomputable def Expr.tot (e : Expr) (x : Row) (r k : ℕ) : ℝ := ∏ f ∈ Finset.range e.feats, e.fval x r k f

theorem prod_eq_prodL {n : ℕ} (es : Fin n → Expr) : Expr.prod n es = .prodL (List.ofFn es) := by
  have key : ∀ (l : List Expr) (n : ℕ) (es : Fin n → Expr) (h : l.length = n),
      (∀ i : Fin n, l.get (Fin.cast h.symm i) = es i) → Expr.prodL l = Expr.prod n es := by
    intro l n es h he
    subst h
    unfold Expr.prodL
    congr 1
    funext i
    exact he i
  exact (key (List.ofFn es) n es (by simp) fun i => by simp).symm

/-- A list of factors that fit together. -/
def Fits (l : List Expr) : Prop :=
  (∀ e ∈ l, e.WellFormed) ∧ l.Pairwise (fun a b => Disjoint a.vars b.vars) ∧
    (∀ a ∈ l, ∀ b ∈ l, a.chans = b.chans) ∧ ∀ a ∈ l, ∀ b ∈ l, a.reps = b.reps

theorem wellFormed_prodL (l : List Expr) : (Expr.prodL l).WellFormed ↔ 2 ≤ l.length ∧ Fits l := by
  have hall : ∀ P : Expr → Prop, (∀ i : Fin l.length, P (l.get i)) ↔ ∀ e ∈ l, P e := by
    intro P
    constructor
    · intro h e he
      obtain ⟨i, rfl⟩ := List.get_of_mem he
      exact h i
    · intro h i; exact h _ (List.get_mem l i)
  have hall2 : ∀ P : Expr → Expr → Prop, (∀ i j : Fin l.length, P (l.get i) (l.get j)) ↔ ∀ a ∈ l, ∀ b ∈ l, P a b := by
    intro P
    constructor
    · intro h a ha b hb
      obtain ⟨i, rfl⟩ := List.get_of_mem ha
      obtain ⟨j, rfl⟩ := List.get_of_mem hb
      exact h i j
    · intro h i j; exact h _ (List.get_mem l i) _ (List.get_mem l j)
  show 2 ≤ l.length ∧ (∀ i, (l.get i).WellFormed) ∧ (∀ i j, i ≠ j → Disjoint (l.get i).vars (l.get j).vars) ∧
      (∀ i j, (l.get i).chans = (l.get j).chans) ∧ (∀ i j, (l.get i).reps = (l.get j).reps) ↔ _
  unfold Fits
  rw [hall fun e => e.WellFormed, hall2 fun a b => a.chans = b.chans, hall2 fun a b => a.reps = b.reps]
  have hpw : (∀ i j : Fin l.length, i ≠ j → Disjoint (l.get i).vars (l.get j).vars) ↔
      l.Pairwise fun a b => Disjoint a.vars b.vars := by
    rw [List.pairwise_iff_get]
    constructor
    · intro h i j hij; exact h i j hij.ne
    · intro h i j hij
      rcases lt_or_gt_of_ne hij with hl | hl
      · exact h i j hl
      · exact (h j i hl).symm
  rw [hpw]

theorem vars_prodL (l : List Expr) : (Expr.prodL l).vars = {v | ∃ e ∈ l, v ∈ e.vars} := by
  ext v
  show (∃ i : Fin l.length, v ∈ (l.get i).vars) ↔ ∃ e ∈ l, v ∈ e.vars
  constructor
  · rintro ⟨i, hi⟩; exact ⟨_, List.get_mem l i, hi⟩
  · rintro ⟨e, he, hv⟩
    obtain ⟨i, rfl⟩ := List.get_of_mem he
    exact ⟨i, hv⟩

theorem tot_prodL (l : List Expr) (x : Row) (r k : ℕ) : (Expr.prodL l).tot x r k = (l.map fun e => e.tot x r k).prod := by
  show ∏ f ∈ Finset.range 1, ∏ i : Fin l.length, (l.get i).tot x r k = _
  rw [Finset.prod_range_one]
  have : (l.map fun e => e.tot x r k) = List.ofFn fun i : Fin l.length => (l.get i).tot x r k := by
    apply List.ext_getElem
    · simp
    · intro i h1 h2; simp
  rw [this, List.prod_ofFn]

theorem chans_prodL (a : Expr) (l : List Expr) : (Expr.prodL (a :: l)).chans = a.chans := rfl
theorem reps_prodL (a : Expr) (l : List Expr) : (Expr.prodL (a :: l)).reps = a.reps := rfl

theorem Fits.perm {l l' : List Expr} (h : l.Perm l') : Fits l ↔ Fits l' := by
  unfold Fits
  rw [h.pairwise_iff (fun {a b} (hab : Disjoint a.vars b.vars) => hab.symm)]
  simp only [h.mem_iff]

/-- A product of at least two factors can be replaced by its factors. -/
theorem fits_flatten {m : List Expr} (hm : 2 ≤ m.length) (l : List Expr) : Fits (m ++ l) ↔ Fits (.prodL m :: l) := by
  rcases m with _ | ⟨a, m'⟩
  · simp at hm
  set m := a :: m' with hmd
  have ham : a ∈ m := by rw [hmd]; simp
  have hc : (Expr.prodL m).chans = a.chans := chans_prodL a m'
  have hr : (Expr.prodL m).reps = a.reps := reps_prodL a m'
  constructor
  · rintro ⟨h1, h2, h3, h4⟩
    rw [List.pairwise_append] at h2
    have hw : (Expr.prodL m).WellFormed := (wellFormed_prodL m).2 ⟨hm, fun e he => h1 e (by simp [he]), h2.1,
      fun b hb c hc => h3 b (by simp [hb]) c (by simp [hc]), fun b hb c hc => h4 b (by simp [hb]) c (by simp [hc])⟩
    have hcc : ∀ b ∈ Expr.prodL m :: l, b.chans = a.chans := by
      intro b hb
      rcases List.mem_cons.1 hb with rfl | hb
      · exact hc
      · exact h3 b (by simp [hb]) a (by simp [ham])
    have hrr : ∀ b ∈ Expr.prodL m :: l, b.reps = a.reps := by
      intro b hb
      rcases List.mem_cons.1 hb with rfl | hb
      · exact hr
      · exact h4 b (by simp [hb]) a (by simp [ham])
    refine ⟨?_, List.pairwise_cons.2 ⟨fun b hb => ?_, h2.2.1⟩, fun b hb c hc => by rw [hcc b hb, hcc c hc],
      fun b hb c hc => by rw [hrr b hb, hrr c hc]⟩
    · intro e he
      rcases List.mem_cons.1 he with rfl | he
      · exact hw
      · exact h1 e (by simp [he])
    · rw [vars_prodL, Set.disjoint_left]
      rintro v ⟨e, he, hv⟩
      exact Set.disjoint_left.1 (h2.2.2 e he b hb) hv
  · rintro ⟨h1, h2, h3, h4⟩
    rw [List.pairwise_cons] at h2
    obtain ⟨-, g1, g2, g3, g4⟩ := (wellFormed_prodL m).1 (h1 _ (by simp))
    have hcc : ∀ b ∈ m ++ l, b.chans = a.chans := by
      intro b hb
      rcases List.mem_append.1 hb with hb | hb
      · exact g3 b hb a ham
      · rw [← hc]; exact h3 b (by simp [hb]) _ (by simp)
    have hrr : ∀ b ∈ m ++ l, b.reps = a.reps := by
      intro b hb
      rcases List.mem_append.1 hb with hb | hb
      · exact g4 b hb a ham
      · rw [← hr]; exact h4 b (by simp [hb]) _ (by simp)
    refine ⟨?_, List.pairwise_append.2 ⟨g2, h2.2, fun b hb c hc => ?_⟩, fun b hb c hc => by rw [hcc b hb, hcc c hc],
      fun b hb c hc => by rw [hrr b hb, hrr c hc]⟩
    · intro e he
      rcases List.mem_append.1 he with he | he
      · exact g1 e he
      · exact h1 e (by simp [he])
    · have := h2.1 c hc
      rw [vars_prodL, Set.disjoint_left] at this
      rw [Set.disjoint_left]
      exact fun v hv => this ⟨b, hb, hv⟩

/-! ### factors -/

/-- The factor list `a * b` starts from. -/
def Expr.factors : Expr → List Expr
  | .prod _ es => List.ofFn es
  | e => [e]

theorem mul_expr (on : Bool) {a b : Expr} (ha : a.Unweighted) :
    mul on (.expr a) (.expr b) = .ok (.expr (.prodL (a.factors ++ [b]))) := by
  cases a with
  | weighted w e => exact ha.elim
  | term c => rfl
  | prod n es => rfl
  | sum n ws es => rfl

theorem factors_ne (a : Expr) (hf : a.Formed) : a.factors ≠ [] := by
  cases a with
  | prod n es =>
    intro h
    have := congrArg List.length h
    simp [Expr.factors] at this
    have h2 : 2 ≤ n := hf
    omega
  | _ => simp [Expr.factors]

theorem fits_factors {a : Expr} (hf : a.Formed) (l : List Expr) : Fits (a.factors ++ l) ↔ Fits (a :: l) := by
  cases a with
  | prod n es =>
    rw [prod_eq_prodL es]
    have : (Expr.prodL (List.ofFn es)).factors = List.ofFn es := by
      rw [← prod_eq_prodL]; rfl
    rw [this]
    exact fits_flatten (by rw [List.length_ofFn]; exact hf) l
  | _ => exact Iff.rfl

theorem factors_cons (a : Expr) (hf : a.Formed) : ∃ b m, a.factors = b :: m ∧ b.chans = a.chans ∧ b.reps = a.reps := by
  cases a with
  | prod n es =>
    have h2 : 2 ≤ n := hf
    have hn : 0 < n := by omega
    refine ⟨es ⟨0, hn⟩, (List.ofFn es).tail, ?_, ?_, ?_⟩
    · show List.ofFn es = _
      obtain ⟨m, rfl⟩ : ∃ m, n = m + 1 := ⟨n - 1, by omega⟩
      rw [List.ofFn_succ]; rfl
    · simp only [Expr.chans, hn, dif_pos]
    · simp only [Expr.reps, hn, dif_pos]
  | _ => exact ⟨_, [], rfl, rfl, rfl⟩

theorem factors_tot (a : Expr) (x : Row) (r k : ℕ) : (a.factors.map fun e => e.tot x r k).prod = a.tot x r k := by
  cases a with
  | prod n es => rw [prod_eq_prodL es, tot_prodL, ← prod_eq_prodL]; rfl
  | _ => simp [Expr.factors]

theorem factors_vars (a : Expr) (v : Var) : (∃ e ∈ a.factors, v ∈ e.vars) ↔ v ∈ a.vars := by
  cases a with
  | prod n es => rw [prod_eq_prodL es, vars_prodL, ← prod_eq_prodL]; rfl
  | _ => simp [Expr.factors]

/-- Lists of factors with the same meaning. -/
theorem same_of {l l' : List Expr} (hT : (Expr.prodL l).All Accepted) (hT' : (Expr.prodL l').All Accepted)
    (hl : 2 ≤ l.length) (hl' : 2 ≤ l'.length) (hf : Fits l ↔ Fits l')
    (hcr : Fits l → (Expr.prodL l).chans = (Expr.prodL l').chans ∧ (Expr.prodL l).reps = (Expr.prodL l').reps)
    (hv : ∀ v, (∃ e ∈ l, v ∈ e.vars) ↔ ∃ e ∈ l', v ∈ e.vars)
    (ht : ∀ x r k, (l.map fun e => e.tot x r k).prod = (l'.map fun e => e.tot x r k).prod) :
    SameMeaning (.prodL l) (.prodL l') := by
  refine ⟨?_, fun c d hc hd => ?_⟩
  · rw [C39_build_iff hT, C39_build_iff hT', wellFormed_prodL, wellFormed_prodL, hf]
    exact ⟨fun h => ⟨hl', h.2⟩, fun h => ⟨hl, h.2⟩⟩
  · obtain ⟨a1, a2, a3, a4⟩ := C39_build_shape hT hc
    obtain ⟨b1, b2, b3, b4⟩ := C39_build_shape hT' hd
    obtain ⟨e1, e2⟩ := hcr ((wellFormed_prodL l).1 ((C39_build_iff hT).1 ⟨c, hc⟩)).2
    have hF : F c = 1 := a1
    have hF' : F d = 1 := b1
    refine ⟨by rw [hF, hF'], by rw [a2, b2, e1], by rw [a3, b3, e2], fun v => ?_, fun x r hr k hk => ?_⟩
    · rw [a4, b4, vars_prodL, vars_prodL]; exact hv v
    · have g1 : dens c x r k = (Expr.prodL l).tot x r k := by
        unfold dens Expr.tot
        rw [a1]
        exact Finset.prod_congr rfl fun f hf => C39_features hT hc x (by rw [a1]; exact Finset.mem_range.1 hf) hr hk
      have g2 : dens d x r k = (Expr.prodL l').tot x r k := by
        unfold dens Expr.tot
        rw [b1]
        exact Finset.prod_congr rfl fun f hf => C39_features hT' hd x (by rw [b1]; exact Finset.mem_range.1 hf)
          (by omega) (by omega)
      rw [g1, g2, tot_prodL, tot_prodL, ht]

theorem all_prodL {P : Circ → Prop} (l : List Expr) : (Expr.prodL l).All P ↔ ∀ e ∈ l, e.All P := by
  show (∀ i : Fin l.length, (l.get i).All P) ↔ _
  constructor
  · intro h e he
    obtain ⟨i, rfl⟩ := List.get_of_mem he
    exact h i
  · intro h i; exact h _ (List.get_mem l i)

theorem all_factors {P : Circ → Prop} (a : Expr) : (∀ e ∈ a.factors, e.All P) ↔ a.All P := by
  cases a with
  | prod n es => rw [prod_eq_prodL es, all_prodL, ← prod_eq_prodL]; rfl
  | _ => simp [Expr.factors]

/-- C39: the grouping of `*` does not matter: for unweighted expressions `(a * b) * c` and `a * (b * c)` both evaluate,
and they mean the same. -/
theorem C39_mul_assoc (on : Bool) {a b c : Expr} (ha : a.Unweighted) (hb : b.Unweighted) (fa : a.Formed)
    (fb : b.Formed) (Ta : a.All Accepted) (Tb : b.All Accepted) (Tc : c.All Accepted) :
    ∃ e e', (mul on (.expr a) (.expr b) >>= fun ab => mul on ab (.expr c)) = .ok (.expr e) ∧
      (mul on (.expr b) (.expr c) >>= fun bc => mul on (.expr a) bc) = .ok (.expr e') ∧ SameMeaning e e' := by
  refine ⟨.prodL (a.factors ++ [b, c]), .prodL (a.factors ++ [.prodL (b.factors ++ [c])]), ?_, ?_, ?_⟩
  · rw [mul_expr on ha]
    show mul on (.expr (.prodL (a.factors ++ [b]))) (.expr c) = _
    rw [mul_expr on (a := .prodL (a.factors ++ [b])) trivial]
    have : (Expr.prodL (a.factors ++ [b])).factors = a.factors ++ [b] := List.ofFn_get _
    rw [this, List.append_assoc]; rfl
  · rw [mul_expr on hb]
    show mul on (.expr a) (.expr (.prodL (b.factors ++ [c]))) = _
    rw [mul_expr on ha]
  · obtain ⟨a0, am, hae, hac, har⟩ := factors_cons a fa
    have hlen1 : 1 ≤ a.factors.length := by rw [hae]; simp
    have hlenb : 1 ≤ b.factors.length := by
      obtain ⟨b0, bm, hbe, -, -⟩ := factors_cons b fb; rw [hbe]; simp
    refine same_of ?_ ?_ (by simp) (by simp; omega) ?_ ?_ ?_ ?_
    · rw [all_prodL]; intro e he
      simp only [List.mem_append, List.mem_cons, List.not_mem_nil, or_false] at he
      rcases he with he | rfl | rfl
      · exact (all_factors a).2 Ta e he
      · exact Tb
      · exact Tc
    · rw [all_prodL]; intro e he
      simp only [List.mem_append, List.mem_cons, List.not_mem_nil, or_false] at he
      rcases he with he | rfl
      · exact (all_factors a).2 Ta e he
      · rw [all_prodL]; intro e he
        simp only [List.mem_append, List.mem_cons, List.not_mem_nil, or_false] at he
        rcases he with he | rfl
        · exact (all_factors b).2 Tb e he
        · exact Tc
    · rw [fits_factors fa, fits_factors fa]
      rw [Fits.perm (l := [a, .prodL (b.factors ++ [c])]) (l' := [.prodL (b.factors ++ [c]), a]) (List.Perm.swap _ _ _),
        ← fits_flatten (m := b.factors ++ [c]) (by simp; omega) [a], List.append_assoc, fits_factors fb]
      apply Fits.perm
      show [a, b, c].Perm [b, c, a]
      exact (List.Perm.swap _ _ _).trans (List.Perm.cons _ (List.Perm.swap _ _ _))
    · intro _; rw [hae]; exact ⟨rfl, rfl⟩
    · intro v
      simp only [List.mem_append, List.mem_cons, List.not_mem_nil, or_false, or_and_right, exists_or, factors_vars,
        exists_eq_left, vars_prodL, Set.mem_ofPred_eq]
    · intro x r k
      simp only [List.map_append, List.prod_append, factors_tot, List.map_cons, List.map_nil, List.prod_cons,
        List.prod_nil, mul_one, tot_prodL]

/-- C39: the order of the factors does not matter either. -/
theorem C39_mul_comm (on : Bool) {a b : Expr} (ha : a.Unweighted) (hb : b.Unweighted) (fa : a.Formed)
    (fb : b.Formed) (Ta : a.All Accepted) (Tb : b.All Accepted) :
    ∃ e e', mul on (.expr a) (.expr b) = .ok (.expr e) ∧ mul on (.expr b) (.expr a) = .ok (.expr e') ∧
      SameMeaning e e' := by
  refine ⟨_, _, mul_expr on ha, mul_expr on hb, ?_⟩
  obtain ⟨a0, am, hae, hac, har⟩ := factors_cons a fa
  obtain ⟨b0, bm, hbe, hbc, hbr⟩ := factors_cons b fb
  have hT : ∀ {a b : Expr}, a.All Accepted → b.All Accepted → (Expr.prodL (a.factors ++ [b])).All Accepted := by
    intro a b Ta Tb
    rw [all_prodL]; intro e he
    simp only [List.mem_append, List.mem_cons, List.not_mem_nil, or_false] at he
    rcases he with he | rfl
    · exact (all_factors a).2 Ta e he
    · exact Tb
  refine same_of (hT Ta Tb) (hT Tb Ta) (by rw [hae]; simp) (by rw [hbe]; simp) ?_ ?_ ?_ ?_
  · rw [fits_factors fa, fits_factors fb]
    exact Fits.perm (List.Perm.swap _ _ _)
  · intro h
    have h' := (fits_factors fa _).1 h
    rw [hae, hbe]
    rw [List.cons_append, List.cons_append, chans_prodL, chans_prodL, reps_prodL, reps_prodL, hac, hbc, har, hbr]
    exact ⟨h'.2.2.1 a (by simp) b (by simp), h'.2.2.2 a (by simp) b (by simp)⟩
  · intro v
    simp only [List.mem_append, List.mem_cons, List.not_mem_nil, or_false, or_and_right, exists_or, factors_vars,
      exists_eq_left]
    exact or_comm
  · intro x r k
    simp only [List.map_append, List.prod_append, factors_tot, List.map_cons, List.map_nil, List.prod_cons,
      List.prod_nil, mul_one]
    exact mul_comm _ _

/-! ### `+` -/

theorem add_expr (on : Bool) {a b : Expr} {s t : List (ℝ × Expr)} (ha : a.terms = some s) (hb : b.terms = some t)
    (hs : s ≠ []) (ht : t ≠ []) (ps : ∀ p ∈ s, 0 < p.1) (pt : ∀ p ∈ t, 0 < p.1) :
    ∃ e, add on (.expr a) (.expr b) = .ok (.expr e) ∧ e.terms = some (s ++ t) ∧
      e = .sum (s ++ t).length (fun i => ((s ++ t).get i).1) fun i => ((s ++ t).get i).2 := by
  refine ⟨.sum (s ++ t).length (fun i => ((s ++ t).get i).1) fun i => ((s ++ t).get i).2, ?_, ?_, rfl⟩
  · simp only [add, ha, hb]
    unfold mkSumExpr
    have h1 : ¬ (s ++ t).length < 2 := by
      have := List.length_pos_of_ne_nil hs
      have := List.length_pos_of_ne_nil ht
      rw [List.length_append]; omega
    have h2 : ¬ ∃ a ∈ s ++ t, a.1 ≤ 0 := by
      rintro ⟨a, ha, h0⟩
      rcases List.mem_append.1 ha with ha | ha
      · exact absurd (ps a ha) (not_lt.2 h0)
      · exact absurd (pt a ha) (not_lt.2 h0)
    rw [if_neg h1, if_neg h2]
    rfl
  · show some (List.ofFn fun i : Fin (s ++ t).length => (((s ++ t).get i).1, ((s ++ t).get i).2)) = _
    congr 1
    exact List.ofFn_get _

theorem add_bad (on : Bool) {a b : Expr} (h : a.terms = none ∨ b.terms = none) :
    add on (.expr a) (.expr b) = .error .invalidParameter := by
  simp only [add]
  rcases h with h | h
  · rw [h]
  · rw [h]; cases a.terms <;> rfl

/-- Mixture objects have at least one term. -/
def Expr.NonEmpty (e : Expr) : Prop := e.terms ≠ some []

/-- C39: `+` collects the weighted terms in order, and its grouping does not matter at all: `(a + b) + c` and
`a + (b + c)` give the same object or both raise the same exception. -/
theorem C39_add_assoc (on : Bool) {a b c : Expr} (pa : a.Pos) (pb : b.Pos) (pc : c.Pos) (na : a.NonEmpty)
    (nb : b.NonEmpty) (nc : c.NonEmpty) :
    (add on (.expr a) (.expr b) >>= fun ab => add on ab (.expr c)) =
        (add on (.expr b) (.expr c) >>= fun bc => add on (.expr a) bc) ∧
      ∀ s t u, a.terms = some s → b.terms = some t → c.terms = some u →
        ∃ e, (add on (.expr a) (.expr b) >>= fun ab => add on ab (.expr c)) = .ok (.expr e) ∧
          e.terms = some (s ++ t ++ u) := by
  have main : ∀ s t u, a.terms = some s → b.terms = some t → c.terms = some u →
      ∃ e, (add on (.expr a) (.expr b) >>= fun ab => add on ab (.expr c)) = .ok (.expr e) ∧
        (add on (.expr b) (.expr c) >>= fun bc => add on (.expr a) bc) = .ok (.expr e) ∧ e.terms = some (s ++ t ++ u) := by
    intro s t u hs ht hu
    have es : s ≠ [] := by rintro rfl; exact na hs
    have et : t ≠ [] := by rintro rfl; exact nb ht
    have eu : u ≠ [] := by rintro rfl; exact nc hu
    have app : ∀ {s t : List (ℝ × Expr)}, (∀ p ∈ s, 0 < p.1) → (∀ p ∈ t, 0 < p.1) → ∀ p ∈ s ++ t, 0 < p.1 := by
      intro s t h1 h2 p hp
      rcases List.mem_append.1 hp with hp | hp
      · exact h1 p hp
      · exact h2 p hp
    obtain ⟨e1, h1, t1, -⟩ := add_expr on hs ht es et (pa s hs) (pb t ht)
    obtain ⟨e2, h2, t2, d2⟩ := add_expr on t1 hu (by simp [es]) eu (app (pa s hs) (pb t ht)) (pc u hu)
    obtain ⟨e3, h3, t3, -⟩ := add_expr on ht hu et eu (pb t ht) (pc u hu)
    obtain ⟨e4, h4, t4, d4⟩ := add_expr on hs t3 es (by simp [et]) (pa s hs) (app (pb t ht) (pc u hu))
    refine ⟨e2, ?_, ?_, t2⟩
    · rw [h1]; exact h2
    · rw [h3]
      show add on (.expr a) (.expr e3) = _
      rw [h4, d4, d2, List.append_assoc]
  refine ⟨?_, fun s t u hs ht hu => ?_⟩
  · cases hs : a.terms with
    | none =>
      rw [add_bad on (.inl hs)]
      cases ht : b.terms with
      | none => rw [add_bad on (.inl ht)]; rfl
      | some t =>
        cases hu : c.terms with
        | none => rw [add_bad on (.inr hu)]; rfl
        | some u =>
          have et : t ≠ [] := by rintro rfl; exact nb ht
          have eu : u ≠ [] := by rintro rfl; exact nc hu
          obtain ⟨e3, h3, t3, -⟩ := add_expr on ht hu et eu (pb t ht) (pc u hu)
          rw [h3]
          exact (add_bad on (.inl hs)).symm
    | some s =>
      cases ht : b.terms with
      | none => rw [add_bad on (.inr ht), add_bad on (.inl ht)]; rfl
      | some t =>
        cases hu : c.terms with
        | none =>
          have es : s ≠ [] := by rintro rfl; exact na hs
          have et : t ≠ [] := by rintro rfl; exact nb ht
          obtain ⟨e1, h1, t1, -⟩ := add_expr on hs ht es et (pa s hs) (pb t ht)
          rw [h1, add_bad on (.inr hu)]
          exact add_bad on (.inr hu)
        | some u =>
          obtain ⟨e, h1, h2, -⟩ := main s t u hs ht hu
          rw [h1, h2]
  · obtain ⟨e, h1, -, h3⟩ := main s t u hs ht hu
    exact ⟨e, h1, h3⟩

/-- C39: unweighted sums are never accepted: `+` needs a weighted term or a mixture on both sides. -/
theorem C39_unweighted_sum_rejected (on : Bool) {a b : Obj} (ha : ∀ e s, a = .expr e → e.terms = some s → False)
    (hn : ∀ w, a ≠ .num w) : ∃ e, add on a b = .error e := by
  cases a with
  | num w => exact absurd rfl (hn w)
  | mod c => cases on <;> exact ⟨_, rfl⟩
  | expr a =>
    have hn : a.terms = none := by
      cases h : a.terms with
      | none => rfl
      | some s => exact (ha a s rfl h).elim
    cases b with
    | expr b => exact ⟨_, add_bad on (.inl hn)⟩
    | num w => cases a <;> exact ⟨_, rfl⟩
    | mod c => cases a <;> exact ⟨_, rfl⟩

/-! ### Weights inside products -/

/-- C39: `w * a * b` is `w * (a * b)`: the weight applies to the product (same meaning of the weighted expression). -/
theorem C39_weight_left (on : Bool) {w : ℝ} (hw : 0 < w) {a b : Expr} (ha : a.Unweighted) (fa : a.Formed)
    (Ta : a.All Accepted) (Tb : b.All Accepted) :
    ∃ e e', (mul on (.num (.real w)) (.expr a) >>= fun wa => mul on wa (.expr b)) = .ok (.expr (.weighted w e)) ∧
      (mul on (.expr a) (.expr b) >>= fun ab => mul on (.num (.real w)) ab) = .ok (.expr (.weighted w e')) ∧
      SameMeaning e e' := by
  have hmk : ∀ e, mkWeighted (.real w) e = .ok (.weighted w e) := by
    intro e; unfold mkWeighted; simp only; rw [if_neg (not_le.2 hw)]
  refine ⟨.prodL [a, b], .prodL (a.factors ++ [b]), ?_, ?_, ?_⟩
  · have h1 : mul on (.num (.real w)) (.expr a) = .ok (.expr (.weighted w a)) := by
      cases a with
      | weighted w e => exact ha.elim
      | _ => simp only [mul, hmk]; rfl
    rw [h1]
    show mul on (.expr (.weighted w a)) (.expr b) = _
    simp only [mul, exprMul, asExpr, bind, Except.bind, hmk]; rfl
  · rw [mul_expr on ha]
    show mul on (.num (.real w)) (.expr (.prodL (a.factors ++ [b]))) = _
    simp only [mul, Expr.prodL, hmk]; rfl
  · obtain ⟨a0, am, hae, hac, har⟩ := factors_cons a fa
    refine same_of ?_ ?_ (by simp) (by rw [hae]; simp) (fits_factors fa _).symm ?_ ?_ ?_
    · rw [all_prodL]; intro e he
      rcases List.mem_pair.1 he with rfl | rfl
      · exact Ta
      · exact Tb
    · rw [all_prodL]; intro e he
      simp only [List.mem_append, List.mem_cons, List.not_mem_nil, or_false] at he
      rcases he with he | rfl
      · exact (all_factors a).2 Ta e he
      · exact Tb
    · intro _; rw [hae, List.cons_append, chans_prodL, chans_prodL, reps_prodL, reps_prodL]; exact ⟨hac.symm, har.symm⟩
    · intro v
      simp only [List.mem_append, List.mem_cons, List.not_mem_nil, or_false, or_and_right, exists_or, factors_vars,
        exists_eq_left]
    · intro x r k
      simp only [List.map_append, List.prod_append, factors_tot, List.map_cons, List.map_nil, List.prod_cons,
        List.prod_nil, mul_one]

/-- C39 is FALSE for a weight on a later factor: for expression objects `a * (w * b)` is accepted as an expression but
can never be built, although `(w * a) * b` can; between bare modules inside a `dsl()` block the same spelling works. -/
theorem C39_weight_right_unbuildable (on : Bool) {w : ℝ} {a b : Expr} (ha : a.Unweighted) :
    ∃ e, mul on (.expr a) (.expr (.weighted w b)) = .ok (.expr e) ∧ ∀ c, build e ≠ .ok c := by
  refine ⟨_, mul_expr on ha, fun c h => ?_⟩
  unfold Expr.prodL at h
  obtain ⟨cs, hcs, -⟩ := build_prod_iff.1 h
  have hlen : a.factors.length < (a.factors ++ [Expr.weighted w b]).length := by simp
  have := hcs ⟨a.factors.length, hlen⟩
  have e : (a.factors ++ [Expr.weighted w b]).get ⟨a.factors.length, hlen⟩ = .weighted w b := by simp
  rw [e] at this
  cases this

theorem C39_weight_right_modules {w : ℝ} (hw : 0 < w) (a b : Circ) :
    (mul true (.num (.real w)) (.mod b) >>= fun wb => mul true (.mod a) wb) =
      .ok (.expr (.weighted w (.prodL [.term a, .term b]))) := by
  have hmk : ∀ e, mkWeighted (.real w) e = .ok (.weighted w e) := by
    intro e; unfold mkWeighted; simp only; rw [if_neg (not_le.2 hw)]
  simp only [mul, hmk, if_true, bind, Except.bind, pure, Except.pure]

/-! ### Normalisation -/

/-- A module that is a density: accepted, aligned, normalised leaves, and its tensor has the repetitions it reports. -/
structure Proper (μ : Var → Measure ℝ) (c : Circ) : Prop where
  acc : Accepted c
  al : Aligned c
  lf : LeafOk μ c
  rep : tensorR c = some (R c)

theorem All.imp {P Q : Circ → Prop} (h : ∀ c, P c → Q c) (e : Expr) : e.All P → e.All Q := by
  induction e with
  | term c => exact h c
  | weighted w e ih => exact ih
  | prod n es ih => exact fun hp i => ih i (hp i)
  | sum n ws es ih => exact fun hp i => ih i (hp i)

theorem build_proper {μ : Var → Measure ℝ} (e : Expr) (hT : e.All (Proper μ)) (hS : e.Single) :
    ∀ c, build e = .ok c → Proper μ c := by
  induction e with
  | term c =>
    intro c' h
    rw [build] at h; injection h with h; subst h; exact hT
  | weighted w e ih => intro c h; rw [build] at h; cases h
  | prod n es ih =>
    intro c h
    have hT' : ∀ i, (es i).All (Proper μ) := hT
    obtain ⟨cs, hcs, hv, hm⟩ := build_prod_iff.1 h
    have hP : ∀ i, Proper μ (cs i) := fun i => ih i (hT' i) (hS i) _ (hcs i)
    have hP' : ∀ m ∈ List.ofFn cs, Proper μ m := by
      intro m hm
      obtain ⟨i, rfl⟩ := (List.mem_ofFn' _ _).1 hm
      exact hP i
    obtain ⟨g1, g2, g3, g4, -, -⟩ := mkProd_valid (fun m hm => (hP' m hm).acc) hv
    rw [g1] at hm
    injection hm with hm
    subst hm
    obtain ⟨hlen, -⟩ := (validateProduct_iff (fun m hm => (hP' m hm).acc)).1 hv
    refine ⟨g2, fun i => (hP' _ (List.get_mem _ i)).al, fun i => (hP' _ (List.get_mem _ i)).lf, ?_⟩
    refine tensorR_cat1.2 ⟨by omega, fun i => ?_⟩
    rw [(hP' _ (List.get_mem _ i)).rep, g4 _ (List.get_mem _ i)]
  | sum n ws es ih =>
    intro c h
    have hT' : ∀ i, (es i).All (Proper μ) := hT
    have hTa : Expr.All Accepted (.sum n ws es) := All.imp (fun c h => h.acc) _ hT
    obtain ⟨hwf, -⟩ := (build_spec _ hTa).2 c h
    obtain ⟨cs, w, hcs, hv, hw, hm⟩ := build_sum_iff.1 h
    have hL : ∀ i, Looks (es i) (cs i) := fun i => ((build_spec _ (All.imp (fun c h => h.acc) _ (hT' i))).2 _ (hcs i)).2
    have hP : ∀ i, Proper μ (cs i) := fun i => ih i (hT' i) (hS i).1 _ (hcs i)
    have hP' : ∀ m ∈ List.ofFn cs, Proper μ m ∧ F m = 1 := by
      intro m hm
      obtain ⟨i, rfl⟩ := (List.mem_ofFn' _ _).1 hm
      exact ⟨hP i, by rw [(hL i).feats]; exact (hS i).2⟩
    have ha : ∀ m ∈ List.ofFn cs, Accepted m := fun m hm => (hP' m hm).1.acc
    have hp' : ∀ a ∈ List.ofFn ws, 0 < a := by
      intro a ha
      obtain ⟨i, rfl⟩ := (List.mem_ofFn' _ _).1 ha
      exact hwf.2.1 i
    obtain ⟨θ, Rn, g1, g2, g3, -⟩ := mkSum_valid ha hv hp' (by simp) hw
    rw [g1] at hm
    injection hm with hm
    subst hm
    obtain ⟨hlen, hs, -⟩ := (validateSum_iff ha).1 hv
    refine ⟨g2, ⟨fun i => (hP' _ (List.get_mem _ i)).1.al, fun i j => ?_⟩, fun i => (hP' _ (List.get_mem _ i)).1.lf, ?_⟩
    · have one : ∀ m, Accepted m → F m = 1 → ∃ u, den m = [u] ∧ ∀ v, v ∈ u.scope ↔ v ∈ (scope m).query := by
        intro m hm hF
        have hl : (den m).length = 1 := by rw [den_length]; exact hF
        obtain ⟨u, hu⟩ := List.length_eq_one_iff.1 hl
        refine ⟨u, hu, fun v => ?_⟩
        rw [(scope_facts hm).2.2.1 v, hu]
        simp
      have mi := List.get_mem (List.ofFn cs) i
      have mj := List.get_mem (List.ofFn cs) j
      obtain ⟨u, hu, hv⟩ := one _ (ha _ mi) (hP' _ mi).2
      obtain ⟨u', hu', hv'⟩ := one _ (ha _ mj) (hP' _ mj).2
      rw [hu, hu']
      simp only [List.map_cons, List.map_nil, List.cons.injEq, and_true]
      ext v
      rw [hv, hv', hs _ mi _ mj]
    · have hcat : tensorR (cat2 (List.ofFn cs).length (List.ofFn cs).get) = some Rn := by
        refine tensorR_cat2.2 ⟨by omega, fun i => ?_⟩
        rw [(hP' _ (List.get_mem _ i)).1.rep, g3 _ (List.get_mem _ i)]
      show tensorR (sum _ 1 Rn θ) = some Rn
      have e : tensorR (sum (cat2 (List.ofFn cs).length (List.ofFn cs).get) 1 Rn θ) =
          match tensorR (cat2 (List.ofFn cs).length (List.ofFn cs).get) with
          | none => none
          | some T => if T = Rn then some Rn else if T = 1 then some Rn else if Rn = 1 then some T else none := rfl
      rw [e, hcat]
      simp

/-- C39 (partial): expressions over densities build densities: every output of the built module integrates to one
over its variables, and its log-likelihood never raises.  Missing: terms with several features in mixtures. -/
theorem C39_normalised_partial {μ : Var → Measure ℝ} [∀ v, SigmaFinite (μ v)] {e : Expr} (hT : e.All (Proper μ))
    (hS : e.Single) {c : Circ} (h : build e = .ok c) :
    (∀ x, ∃ T, logLik c x = .ok T) ∧ ∀ {f ch r : ℕ}, f < F c → ch < C c → r < R c → ∀ x : Var → ℝ,
      (∫⋯∫⁻_(fscope c f), (fun y => ENNReal.ofReal (expL (featAt (den c) f (fun v => some (y v)) r ch))) ∂μ) x = 1 := by
  have hp := build_proper e hT hS c h
  refine ⟨fun x => ?_, fun hf hch hr x => C10_normalised_partial hp.acc hp.al hp.lf hp.rep hf hch hr x⟩
  unfold logLik; rw [hp.rep]; exact ⟨_, rfl⟩

/-! ### `dsl()` -/

/-- The exception a program propagates, `dsl()` blocks ignored. -/
def Prog.exn : Prog → Option Exc
  | .pure e => e
  | .seq p q => match p.exn with
    | none => q.exn
    | some e => some e
  | .block p => p.exn
  | .attempt _ => none

/-- `s'` differs from `s` at most in that attributes found in a base class are now also set on the class itself. -/
structure Kept {φ : Type} (s s' : Cls φ) : Prop where
  inh : s'.inh = s.inh
  own : ∀ o, s'.own o = s.own o ∨ (s.own o = none ∧ s'.own o = s.inh o ∧ (s.inh o).isSome)

theorem Kept.refl {φ : Type} (s : Cls φ) : Kept s s := ⟨rfl, fun _ => .inl rfl⟩

theorem Kept.trans {φ : Type} {a b c : Cls φ} (h : Kept a b) (g : Kept b c) : Kept a c := by
  refine ⟨g.inh.trans h.inh, fun o => ?_⟩
  rcases g.own o with g1 | ⟨g1, g2, g3⟩
  · rw [g1]; exact h.own o
  · rcases h.own o with h1 | ⟨h1, h2, h3⟩
    · right; rw [← h1, g1, g2, h.inh]; rw [h.inh] at g3; exact ⟨rfl, rfl, g3⟩
    · rw [g1] at h2; rw [← h2] at h3; cases h3

theorem Kept.lookup {φ : Type} {s s' : Cls φ} (h : Kept s s') (o : Op) : s'.lookup o = s.lookup o := by
  unfold Cls.lookup
  rcases h.own o with h1 | ⟨h1, h2, h3⟩
  · rw [h1, h.inh]
  · rw [h1, h2, h.inh]
    cases hi : s.inh o with
    | none => simp [hi] at h3
    | some f => rfl

theorem enter_own {φ : Type} (ov : Op → φ) (s : Cls φ) (o : Op) : (enter ov s).2.own o = some (ov o) := by
  cases o <;> simp [enter, Cls.set]

theorem restore1_ok {φ : Type} (saved : Op → Option φ) (o : Op) (s : Cls φ) (h : (s.own o).isSome) :
    restore1 saved o s = .ok { s with own := fun p => if p = o then saved o else s.own p } := by
  unfold restore1
  cases hs : saved o with
  | none => simp [Cls.del, h]
  | some f => rfl

theorem leave_ok {φ : Type} (saved : Op → Option φ) (s : Cls φ) (h : ∀ o, (s.own o).isSome) :
    leave saved s = .ok { s with own := saved } := by
  unfold leave
  rw [restore1_ok _ _ _ (h _)]
  simp only [bind, Except.bind]
  rw [restore1_ok _ _ _ (by simpa using h _)]
  simp only
  rw [restore1_ok _ _ _ (by simpa using h _)]
  simp only
  rw [restore1_ok _ _ _ (by simpa using h _)]
  congr 2
  funext o
  cases o <;> simp

theorem run_spec {φ : Type} (ov : Op → φ) (p : Prog) : ∀ s : Cls φ, Kept s (run ov p s).1 ∧ (run ov p s).2 = p.exn := by
  induction p with
  | pure e => intro s; exact ⟨Kept.refl s, rfl⟩
  | seq p q ihp ihq =>
    intro s
    obtain ⟨h1, h2⟩ := ihp s
    unfold run Prog.exn
    rcases hr : run ov p s with ⟨s', r⟩
    rw [hr] at h1 h2
    simp only at h1 h2
    subst h2
    cases he : p.exn with
    | none =>
      obtain ⟨g1, g2⟩ := ihq s'
      exact ⟨h1.trans g1, g2⟩
    | some e => exact ⟨h1, rfl⟩
  | block p ih =>
    intro s
    obtain ⟨h1, h2⟩ := ih (enter ov s).2
    unfold run Prog.exn
    rcases hr : run ov p (enter ov s).2 with ⟨s2, r⟩
    rw [hr] at h1 h2
    simp only at h1 h2
    have hsome : ∀ o, (s2.own o).isSome := by
      intro o
      rcases h1.own o with g | ⟨g, -, -⟩
      · rw [g, enter_own]; rfl
      · rw [enter_own] at g; cases g
    have e1 : (enter ov s).1 = s.lookup := rfl
    simp only [hr, e1, leave_ok _ _ hsome]
    refine ⟨⟨h1.inh, fun o => ?_⟩, h2⟩
    show s.lookup o = s.own o ∨ _
    unfold Cls.lookup
    cases ho : s.own o with
    | some f => left; rfl
    | none =>
      cases hi : s.inh o with
      | none => left; simp
      | some f =>
        right
        refine ⟨rfl, ?_, rfl⟩
        show s.lookup o = _
        unfold Cls.lookup; rw [ho, hi]; rfl
  | attempt p ih =>
    intro s
    exact ⟨(ih s).1, rfl⟩

/-- C39: after any program using `dsl()` blocks - nested, repeated, left by exceptions or with exceptions swallowed -
every operator of `Module` resolves to what it resolved to before, and leaving a block adds no exception of its own.
If no base class of `Module` defines the operators (torch.nn.Module defines none), the class itself is unchanged. -/
theorem C39_restores {φ : Type} (ov : Op → φ) (p : Prog) (s : Cls φ) :
    (∀ o, (run ov p s).1.lookup o = s.lookup o) ∧ (run ov p s).2 = p.exn ∧
      ((∀ o, s.inh o = none) → (run ov p s).1 = s) := by
  obtain ⟨h1, h2⟩ := run_spec ov p s
  refine ⟨h1.lookup, h2, fun hn => ?_⟩
  have hown : (run ov p s).1.own = s.own := by
    funext o
    rcases h1.own o with g | ⟨-, -, g⟩
    · exact g
    · rw [hn o] at g; cases g
  rcases hr : (run ov p s).1 with ⟨o, i⟩
  have := h1.inh
  rw [hr] at hown this
  simp only at hown this
  rw [hown, this]

/-- C39: inside a block the operators are the DSL's. -/
theorem C39_inside {φ : Type} (ov : Op → φ) (s : Cls φ) (o : Op) : (enter ov s).2.lookup o = some (ov o) := by
  unfold Cls.lookup; rw [enter_own]; rfl

/-- C39: outside every block a module supports neither `*` nor `+`, on either side, with any partner. -/
theorem C39_outside (c : Circ) (o : Obj) :
    (∃ err, mul false (.mod c) o = .error err) ∧ (∃ err, add false (.mod c) o = .error err) ∧
      (∃ err, add false o (.mod c) = .error err) ∧
      ∀ a, mul false (.num a) (.mod c) = .error .typeError := by
  refine ⟨?_, ⟨_, rfl⟩, ?_, fun a => rfl⟩
  · cases o with
    | num a => exact ⟨_, rfl⟩
    | mod d => exact ⟨_, rfl⟩
    | expr e => cases e <;> exact ⟨_, rfl⟩
  · cases o with
    | num a => exact ⟨_, rfl⟩
    | mod d => exact ⟨_, rfl⟩
    | expr e => exact ⟨_, rfl⟩

/-- C39: inside a block two modules multiply to the product of the two terms, and a positive number weights a module from
either side. -/
theorem C39_inside_modules (c d : Circ) {w : ℝ} (hw : 0 < w) :
    mul true (.mod c) (.mod d) = .ok (.expr (.prodL [.term c, .term d])) ∧
      mul true (.num (.real w)) (.mod c) = .ok (.expr (.weighted w (.term c))) ∧
      mul true (.mod c) (.num (.real w)) = .ok (.expr (.weighted w (.term c))) := by
  have hmk : ∀ e, mkWeighted (.real w) e = .ok (.weighted w e) := by
    intro e; unfold mkWeighted; simp only; rw [if_neg (not_le.2 hw)]
  refine ⟨rfl, ?_, ?_⟩ <;> simp only [mul, hmk, if_true, bind, Except.bind, pure, Except.pure]

/-- C39 is FALSE for blocks that overlap without nesting (two threads, or generators): entering A, entering B, leaving A
and then leaving B leaves the operators installed although both blocks are over. -/
theorem C39_overlapping_blocks_leak {φ : Type} (ovA ovB : Op → φ) (s : Cls φ) (_hn : ∀ o, s.lookup o = none) :
    ∃ s', (leave (enter ovA s).1 (enter ovB (enter ovA s).2).2 >>= leave (enter ovB (enter ovA s).2).1) = .ok s' ∧
      ∀ o, s'.lookup o = some (ovA o) := by
  have hl1 := leave_ok (enter ovA s).1 (enter ovB (enter ovA s).2).2 fun o => by rw [enter_own]; rfl
  rw [hl1]
  have hs : ∀ o, (enter ovB (enter ovA s).2).1 o = some (ovA o) := fun o => C39_inside ovA s o
  have hset : ∀ (t : Cls φ) o, restore1 (enter ovB (enter ovA s).2).1 o t = .ok (t.set o (ovA o)) := by
    intro t o; unfold restore1; rw [hs o]
  refine ⟨(((Cls.set { own := (enter ovA s).1, inh := (enter ovB (enter ovA s).2).2.inh } .mul (ovA .mul)).set .rmul
    (ovA .rmul)).set .add (ovA .add)).set .radd (ovA .radd), ?_, ?_⟩
  · simp only [bind, Except.bind]
    unfold leave
    simp only [hset, bind, Except.bind]
  · intro o
    cases o <;> simp [Cls.lookup, Cls.set]


/-! ### Multivariate terms, and concrete cases -/

/-- `Bernoulli([0, 1])` with success probability `p` for both variables. -/
noncomputable def exPair (p : ℝ) : Circ := .leaf [0, 1] 1 1 fun _ _ _ => Leaves.bernoulliLL p

/-- `0.5 * Bernoulli([0,1], p=1) + 0.5 * Bernoulli([0,1], p=0)`. -/
noncomputable def exMulti : Expr := .sum 2 (fun _ => 1 / 2) ![.term (exPair 1), .term (exPair 0)]

/-- The row `(1, 0)`. -/
noncomputable def exRow : Row := fun v => if v = 0 then some 1 else some 0

theorem exPair_accepted (p : ℝ) : Accepted (exPair p) := rfl

theorem exMulti_all : exMulti.All Accepted := by
  intro i; fin_cases i <;> exact exPair_accepted _

/-- C39 is FALSE for mixtures of multivariate terms: the built module mixes every feature separately, so the row (1, 0),
impossible under both components, gets likelihood 1/4 instead of 0. -/
theorem C39_multivariate_terms : ∃ c, build exMulti = .ok c ∧ exMulti.val exRow 0 0 = 0 ∧ dens c exRow 0 0 = 1 / 4 := by
  have hwf : exMulti.WellFormed := by
    refine ⟨le_rfl, fun _ => by norm_num, fun i => ?_, fun i j => ?_, fun i j => ?_, fun i => ?_, fun i j => ?_⟩
    · fin_cases i <;> trivial
    · fin_cases i <;> fin_cases j <;> rfl
    · fin_cases i <;> fin_cases j <;> rfl
    · fin_cases i <;> rfl
    · fin_cases i <;> fin_cases j <;> rfl
  obtain ⟨c, hc⟩ := (C39_build_iff exMulti_all).2 hwf
  have h0 : ∀ p : ℝ, expL (featAt (den (exPair p)) 0 exRow 0 0) = expL (Leaves.bernoulliLL p 1) := fun p => by
    unfold exPair
    rw [featAt_leaf (v := 0) rfl]
    simp [exRow]
  have h1 : ∀ p : ℝ, expL (featAt (den (exPair p)) 1 exRow 0 0) = expL (Leaves.bernoulliLL p 0) := fun p => by
    unfold exPair
    rw [featAt_leaf (v := 1) rfl]
    simp [exRow]
  have b11 : expL (Leaves.bernoulliLL 1 1) = 1 := by simp [Leaves.bernoulliLL, logL, expL]
  have b10 : expL (Leaves.bernoulliLL 1 0) = 0 := by simp [Leaves.bernoulliLL, logL, expL]
  have b01 : expL (Leaves.bernoulliLL 0 1) = 0 := by simp [Leaves.bernoulliLL, logL, expL]
  have b00 : expL (Leaves.bernoulliLL 0 0) = 1 := by simp [Leaves.bernoulliLL, logL, expL]
  refine ⟨c, hc, ?_, ?_⟩
  · show (∑ i : Fin 2, (1 / 2 : ℝ) * (![Expr.term (exPair 1), .term (exPair 0)] i).val exRow 0 0) / _ = 0
    rw [Fin.sum_univ_two]
    have hv : ∀ p, (Expr.term (exPair p)).val exRow 0 0 = expL (Leaves.bernoulliLL p 1) * expL (Leaves.bernoulliLL p 0) := by
      intro p
      show dens (exPair p) exRow 0 0 = _
      unfold dens
      rw [show F (exPair p) = 2 from rfl, Finset.prod_range_succ, Finset.prod_range_one, h0, h1]
    rw [show (![Expr.term (exPair 1), .term (exPair 0)] : Fin 2 → Expr) 0 = .term (exPair 1) from rfl,
      show (![Expr.term (exPair 1), .term (exPair 0)] : Fin 2 → Expr) 1 = .term (exPair 0) from rfl, hv, hv,
      b10, b01]
    simp
  · obtain ⟨s1, s2, s3, -⟩ := C39_build_shape exMulti_all hc
    have hF : F c = 2 := s1
    have hC : C c = 1 := s2
    have hR : R c = 1 := s3
    unfold dens
    rw [hF, Finset.prod_range_succ, Finset.prod_range_one,
      C39_features exMulti_all hc exRow (by omega) (by omega) (by omega),
      C39_features exMulti_all hc exRow (by omega) (by omega) (by omega)]
    have hfv : ∀ f, exMulti.fval exRow 0 0 f = ((1 / 2 : ℝ) * expL (featAt (den (exPair 1)) f exRow 0 0) +
        1 / 2 * expL (featAt (den (exPair 0)) f exRow 0 0)) / (1 / 2 + 1 / 2) := by
      intro f
      show (∑ i : Fin 2, (1 / 2 : ℝ) * (![Expr.term (exPair 1), .term (exPair 0)] i).fval exRow 0 0 f) /
        (∑ _i : Fin 2, (1 / 2 : ℝ)) = _
      rw [Fin.sum_univ_two, Fin.sum_univ_two]
      rfl
    rw [hfv, hfv, h0, h0, h1, h1, b11, b10, b01, b00]
    norm_num

/-- Univariate leaves. -/
noncomputable def exLeafV (v : Var) (p : ℝ) : Circ := .leaf [v] 1 1 fun _ _ _ => Leaves.bernoulliLL p

/-- `0.4 * A0 * A1 + 2 * (B0 * B1)` meets the hypotheses of the theorems above and builds. -/
noncomputable def exGood : Expr := .sum 2 ![0.4, 2]
  ![.prodL [.term (exLeafV 0 (1/4)), .term (exLeafV 1 (1/2))], .prodL [.term (exLeafV 1 (1/3)), .term (exLeafV 0 (1/5))]]

example : exGood.All Accepted ∧ exGood.Single ∧ exGood.WellFormed := by
  refine ⟨fun i => ?_, fun i => ?_, le_rfl, fun i => ?_, fun i => ?_, fun i j => ?_, fun i j => ?_, fun i => ?_, fun i j => ?_⟩
  · fin_cases i <;> exact (all_prodL _).2 (by intro e he; rcases List.mem_pair.1 he with rfl | rfl <;> exact rfl)
  · fin_cases i <;> exact ⟨fun i => by fin_cases i <;> trivial, rfl⟩
  · fin_cases i <;> norm_num
  · have key : ∀ v w p q, v ≠ w → (Expr.prodL [.term (exLeafV v p), .term (exLeafV w q)]).WellFormed := by
      intro v w p q hvw
      rw [wellFormed_prodL]
      refine ⟨le_rfl, fun e he => ?_, ?_, fun a ha b hb => ?_, fun a ha b hb => ?_⟩
      · rcases List.mem_pair.1 he with rfl | rfl <;> trivial
      · simp only [List.pairwise_cons, List.mem_singleton, forall_eq, List.not_mem_nil, false_imp_iff, implies_true,
          List.Pairwise.nil, and_true]
        rw [Set.disjoint_left]
        intro u h1 h2
        have e1 : u ∈ [v] := h1
        have e2 : u ∈ [w] := h2
        rw [List.mem_singleton] at e1 e2
        exact hvw (e1.symm.trans e2)
      · rcases List.mem_pair.1 ha with rfl | rfl <;> rcases List.mem_pair.1 hb with rfl | rfl <;> rfl
      · rcases List.mem_pair.1 ha with rfl | rfl <;> rcases List.mem_pair.1 hb with rfl | rfl <;> rfl
    fin_cases i
    · exact key 0 1 _ _ (by decide)
    · exact key 1 0 _ _ (by decide)
  · have key : ∀ v w p q, (Expr.prodL [.term (exLeafV v p), .term (exLeafV w q)]).vars = {v, w} := by
      intro v w p q
      rw [vars_prodL]
      ext u
      simp only [List.mem_cons, List.not_mem_nil, or_false, exists_eq_or_imp, exists_eq_left, Set.mem_ofPred_eq,
        Set.mem_insert_iff, Set.mem_singleton_iff]
      show u ∈ [v] ∨ u ∈ [w] ↔ _
      simp
    have k : ∀ i : Fin 2, (![Expr.prodL [.term (exLeafV 0 (1/4)), .term (exLeafV 1 (1/2))],
        .prodL [.term (exLeafV 1 (1/3)), .term (exLeafV 0 (1/5))]] i).vars = ({0, 1} : Set Var) := by
      intro i
      fin_cases i
      · exact key _ _ _ _
      · exact (key _ _ _ _).trans (Set.pair_comm _ _)
    rw [k, k]
  · fin_cases i <;> fin_cases j <;> rfl
  · fin_cases i <;> rfl
  · fin_cases i <;> fin_cases j <;> rfl

/-- Programs with nested blocks and exceptions exist. -/
example : (Prog.seq (.attempt (.block (.seq (.block (.pure none)) (.pure (some .valueError))))) (.block (.pure none))).exn =
    none := rfl

end Verif.Dsl

import Verif.BuildSocs

/-!
# C79: compatible components, `build_socs` and complex squared circuits
-/

open MeasureTheory

namespace Verif
namespace BuildSocs

open Inner

/-! ## Specification: what two circuits with the same skeleton have in common -/

/-- A circuit without its parameters: classes, variables and shapes of the leaves, arities, the axis of each concatenation, kind
and shape of each sum. -/
inductive Skel where
  | leaf (vs : Finset Var) (F C R : ℕ) (cls : ℕ × ℕ)
  | cat1 (n : ℕ) (cs : Fin n → Skel)
  | cat2 (n : ℕ) (cs : Fin n → Skel)
  | prod (c : Skel)
  | sum (signed : Bool) (c : Skel) (Co R : ℕ)

/-- The skeleton of a circuit. -/
def Tpl.skel : Tpl → Skel
  | leaf q C R par => .leaf q.toFinset q.length C R (tag (par 0 0 0))
  | cat1 n cs => .cat1 n fun i => (cs i).skel
  | cat2 n cs => .cat2 n fun i => (cs i).skel
  | prod c => .prod c.skel
  | sum g c Co R _ => .sum g c.skel Co R

/-- All cells of a leaf module belong to its class and have its number of categories. -/
def Tpl.Uniform : Tpl → Prop
  | leaf q C R par => ∀ f < q.length, ∀ c < C, ∀ r < R, tag (par f c r) = tag (par 0 0 0)
  | cat1 _ cs => ∀ i, (cs i).Uniform
  | cat2 _ cs => ∀ i, (cs i).Uniform
  | prod c => c.Uniform
  | sum _ c _ _ _ => c.Uniform

/-! ## The check decides equality of skeletons -/

theorem skel_shape : ∀ {a b : Tpl}, a.skel = b.skel → a.ic.vars = b.ic.vars ∧ a.ic.F = b.ic.F ∧ a.ic.C = b.ic.C ∧ a.ic.R = b.ic.R := by
  intro a
  induction a with
  | leaf q C R par =>
    intro b h
    cases b <;> simp only [Tpl.skel, Skel.leaf.injEq, reduceCtorEq] at h
    obtain ⟨h1, h2, h3, h4, -⟩ := h
    exact ⟨h1, h2, h3, h4⟩
  | cat1 n cs ih =>
    intro b h
    cases b <;> simp only [Tpl.skel, Skel.cat1.injEq, reduceCtorEq] at h
    obtain ⟨rfl, h⟩ := h
    have h := eq_of_heq h
    have hi := fun i => ih i (congrFun h i)
    simp only [Tpl.ic, IC.vars, IC.F, IC.C, IC.R, fun i => (hi i).1, fun i => (hi i).2.1, fun i => (hi i).2.2.1,
      fun i => (hi i).2.2.2]
    exact ⟨trivial, trivial, trivial, trivial⟩
  | cat2 n cs ih =>
    intro b h
    cases b <;> simp only [Tpl.skel, Skel.cat2.injEq, reduceCtorEq] at h
    obtain ⟨rfl, h⟩ := h
    have h := eq_of_heq h
    have hi := fun i => ih i (congrFun h i)
    simp only [Tpl.ic, IC.vars, IC.F, IC.C, IC.R, fun i => (hi i).1, fun i => (hi i).2.1, fun i => (hi i).2.2.1,
      fun i => (hi i).2.2.2]
    exact ⟨trivial, trivial, trivial, trivial⟩
  | prod c ih =>
    intro b h
    cases b <;> simp only [Tpl.skel, Skel.prod.injEq, reduceCtorEq] at h
    obtain ⟨h1, h2, h3, h4⟩ := ih h
    exact ⟨h1, rfl, h3, h4⟩
  | sum g c Co R w ih =>
    intro b h
    cases b <;> simp only [Tpl.skel, Skel.sum.injEq, reduceCtorEq] at h
    obtain ⟨h1, h2, h3, h4⟩ := ih h.2.1
    exact ⟨h1, h2, h.2.2.1, h.2.2.2⟩

theorem head_ok {a b : Tpl} : head a b = .ok () ↔ a.ty = b.ty ∧ a.ic.vars = b.ic.vars ∧ a.ic.F = b.ic.F ∧ a.ic.C = b.ic.C ∧ a.ic.R = b.ic.R := by
  unfold head
  split_ifs with h1 h2 h3
  · simp [h1]
  · simp [h2]
  · simp only [ne_eq, Prod.mk.injEq] at h3
    simp only [reduceCtorEq, false_iff]
    tauto
  · push Not at h1 h2 h3
    simp only [Prod.mk.injEq] at h3
    exact ⟨fun _ => ⟨h1, h2, h3.1, h3.2.1, h3.2.2⟩, fun _ => rfl⟩

theorem head_err {a b : Tpl} {e : Exc} (h : head a b = .error e) : e = .structureError ∨ e = .shapeError := by
  unfold head at h
  split_ifs at h <;> cases h <;> simp

theorem skel_ty {a b : Tpl} (h : a.skel = b.skel) : a.ty = b.ty := by
  cases a <;> cases b <;> simp only [Tpl.skel, reduceCtorEq, Skel.leaf.injEq, Skel.sum.injEq] at h <;> try rfl
  · simp only [Tpl.ty, h.2.2.2.2]
  · obtain ⟨rfl, -⟩ := h
    rename_i g _ _ _ _ _ _ _ _
    cases g <;> rfl

theorem map_unit {n : ℕ} {g : Fin n → Except Exc Unit} :
    (seqFin g).map (fun _ => ()) = .ok () ↔ ∀ i, g i = .ok () := by
  constructor
  · intro h i
    cases hs : seqFin g with
    | error e => rw [hs] at h; cases h
    | ok k => exact seqFin_ok hs i
  · intro h
    rw [seqFin_of (k := fun _ => ()) h]
    rfl

theorem hcatch {x y : Except Exc Unit} : andThen x y = .ok () ↔ x = .ok () ∧ y = .ok () := by
  cases x <;> simp [andThen]

theorem hthrow {x y : Except Exc Unit} {e : Exc} (h : andThen x y = .error e) : x = .error e ∨ y = .error e := by
  cases x <;> simp_all [andThen]

theorem checkPair_iff : ∀ (a b : Tpl), checkPair a b = .ok () ↔ a.skel = b.skel := by
  intro a
  induction a with
  | leaf q C R par =>
    intro b
    cases b with
    | leaf q' C' R' par' =>
      unfold checkPair
      rw [hcatch, head_ok]
      simp only [Tpl.skel, Skel.leaf.injEq, Tpl.ty, Tpl.ic, IC.vars, IC.F, IC.C, IC.R]
      split_ifs with h
      · simp only [reduceCtorEq, and_false, false_iff]
        rintro ⟨-, -, -, -, h'⟩
        exact h (by rw [h'])
      · push Not at h
        simp only [and_true]
        refine ⟨fun ⟨h1, h2, h3, h4, h5⟩ => ⟨h2, h3, h4, h5, Prod.ext (by omega) h⟩,
          fun ⟨h1, h2, h3, h4, h5⟩ => ⟨by rw [h5], h1, h2, h3, h4⟩⟩
    | _ =>
      unfold checkPair
      rw [hcatch]
      simp [Tpl.skel]
  | cat1 n cs ih =>
    intro b
    cases b with
    | cat1 m ds =>
      unfold checkPair
      rw [hcatch, head_ok]
      by_cases h : n = m
      · subst h
        rw [dif_pos rfl, map_unit]
        simp only [Fin.cast_eq_self, ih, Tpl.skel, Skel.cat1.injEq, heq_eq_eq, true_and]
        refine ⟨fun h => funext h.2, fun h => ⟨?_, fun i => congrFun h i⟩⟩
        have h' : (Tpl.cat1 n cs).skel = (Tpl.cat1 n ds).skel := by simp only [Tpl.skel, h]
        exact ⟨rfl, skel_shape h'⟩
      · rw [dif_neg h]
        simp [Tpl.skel, h]
    | _ =>
      unfold checkPair
      rw [hcatch]
      simp [Tpl.skel]
  | cat2 n cs ih =>
    intro b
    cases b with
    | cat2 m ds =>
      unfold checkPair
      rw [hcatch, head_ok]
      by_cases h : n = m
      · subst h
        rw [dif_pos rfl, map_unit]
        simp only [Fin.cast_eq_self, ih, Tpl.skel, Skel.cat2.injEq, heq_eq_eq, true_and]
        refine ⟨fun h => funext h.2, fun h => ⟨?_, fun i => congrFun h i⟩⟩
        have h' : (Tpl.cat2 n cs).skel = (Tpl.cat2 n ds).skel := by simp only [Tpl.skel, h]
        exact ⟨rfl, skel_shape h'⟩
      · rw [dif_neg h]
        simp [Tpl.skel, h]
    | _ =>
      unfold checkPair
      rw [hcatch]
      simp [Tpl.skel]
  | prod c ih =>
    intro b
    cases b with
    | prod d =>
      unfold checkPair
      rw [hcatch, head_ok, ih]
      refine ⟨fun h => by simp only [Tpl.skel, h.2], fun h => ⟨⟨skel_ty h, skel_shape h⟩, ?_⟩⟩
      simpa only [Tpl.skel, Skel.prod.injEq] using h
    | _ =>
      unfold checkPair
      rw [hcatch]
      simp [Tpl.skel]
  | sum g c Co R w ih =>
    intro b
    cases b with
    | sum g' d Co' R' w' =>
      unfold checkPair
      rw [hcatch, head_ok, ih]
      refine ⟨fun h => ?_, fun h => ⟨⟨skel_ty h, skel_shape h⟩, ?_⟩⟩
      · obtain ⟨⟨h1, -, -, h4, h5⟩, h6⟩ := h
        have hg : g = g' := by cases g <;> cases g' <;> first | rfl | cases h1
        simp only [Tpl.ic, IC.C, IC.R] at h4 h5
        simp only [Tpl.skel, hg, h4, h5, h6]
      · simp only [Tpl.skel, Skel.sum.injEq] at h
        exact h.2.1
    | _ =>
      unfold checkPair
      rw [hcatch]
      simp [Tpl.skel]

theorem map_unit_err {n : ℕ} {g : Fin n → Except Exc Unit} {P : Exc → Prop} (hP : ∀ i e, g i = .error e → P e) {e : Exc}
    (h : (seqFin g).map (fun _ => ()) = .error e) : P e := by
  induction n with
  | zero => simp only [seqFin] at h; cases h
  | succ n ih =>
    unfold seqFin at h
    split at h
    · rename_i e' he
      cases h
      exact hP 0 _ he
    · split at h
      · rename_i e' he
        cases h
        exact ih (g := fun i => g i.succ) (fun i e => hP i.succ e) (by rw [he]; rfl)
      · cases h

theorem checkPair_err : ∀ (a b : Tpl) {e : Exc}, checkPair a b = .error e → e = .structureError ∨ e = .shapeError := by
  intro a
  induction a with
  | leaf q C R par =>
    intro b e h
    cases b <;> unfold checkPair at h <;> rcases hthrow h with h | h
    all_goals first
      | exact head_err h
      | (cases h; simp)
      | (split_ifs at h; cases h; simp)
  | cat1 n cs ih =>
    intro b e h
    cases b <;> unfold checkPair at h <;> rcases hthrow h with h | h
    all_goals first
      | exact head_err h
      | (cases h; simp)
      | (split_ifs at h
         · exact map_unit_err (P := fun e => e = .structureError ∨ e = .shapeError) (fun i e => ih i _) h
         · cases h; simp)
  | cat2 n cs ih =>
    intro b e h
    cases b <;> unfold checkPair at h <;> rcases hthrow h with h | h
    all_goals first
      | exact head_err h
      | (cases h; simp)
      | (split_ifs at h
         · exact map_unit_err (P := fun e => e = .structureError ∨ e = .shapeError) (fun i e => ih i _) h
         · cases h; simp)
  | prod c ih =>
    intro b e h
    cases b <;> unfold checkPair at h <;> rcases hthrow h with h | h
    all_goals first
      | exact head_err h
      | (cases h; simp)
      | exact ih _ h
  | sum g c Co R w ih =>
    intro b e h
    cases b <;> unfold checkPair at h <;> rcases hthrow h with h | h
    all_goals first
      | exact head_err h
      | (cases h; simp)
      | exact ih _ h

theorem checkLoop_ok {ref : Tpl} : ∀ {l : List Tpl}, checkLoop ref l = .ok () ↔ ∀ d ∈ l, ref.skel = d.skel
  | [] => by simp [checkLoop]
  | d :: l => by
    rw [List.forall_mem_cons, ← checkLoop_ok (l := l), ← checkPair_iff]
    exact hcatch

/-- **C79 (the compatibility check).** `check_compatible_components` accepts exactly the lists in which any two circuits have the
same skeleton (comparing with the first one is enough), and raises `StructureError` or `ShapeError` otherwise. -/
theorem C79_check (l : List Tpl) :
    (checkAll l = .ok () ↔ ∀ a ∈ l, ∀ b ∈ l, a.skel = b.skel) ∧
      ∀ e, checkAll l = .error e → e = .structureError ∨ e = .shapeError := by
  cases l with
  | nil => simp [checkAll]
  | cons c cs =>
    refine ⟨?_, ?_⟩
    · show checkLoop c cs = .ok () ↔ _
      rw [checkLoop_ok]
      constructor
      · intro h a ha b hb
        have key : ∀ a ∈ c :: cs, c.skel = a.skel := by
          intro a ha
          rcases List.mem_cons.1 ha with rfl | ha
          · rfl
          · exact h a ha
        exact (key a ha).symm.trans (key b hb)
      · intro h d hd
        exact h c List.mem_cons_self d (List.mem_cons_of_mem _ hd)
    · show ∀ e, checkLoop c cs = .error e → _
      intro e h
      induction cs with
      | nil => cases h
      | cons d ds ih =>
        rcases hthrow h with h | h
        · exact checkPair_err _ _ h
        · exact ih h

/-- Two leaf cells of the same family: the same class and, for the two classes that have one, the same number of categories. -/
inductive SameFamily : LeafPar → LeafPar → Prop
  | bern (p p' : ℝ) : SameFamily (.bern p) (.bern p')
  | cat (K : ℕ) (w w' : ℕ → ℝ) : SameFamily (.cat K w) (.cat K w')
  | scat (K : ℕ) (w w' : ℕ → ℝ) : SameFamily (.scat K w) (.scat K w')
  | expo (r r' : ℝ) : SameFamily (.expo r) (.expo r')
  | unif (l l' h h' : ℝ) : SameFamily (.unif l h) (.unif l' h')
  | geom (p p' : ℝ) : SameFamily (.geom p) (.geom p')
  | normal (l l' s s' : ℝ) : SameFamily (.normal l s) (.normal l' s')
  | laplace (l l' s s' : ℝ) : SameFamily (.laplace l s) (.laplace l' s')
  | logNormal (l l' s s' : ℝ) : SameFamily (.logNormal l s) (.logNormal l' s')
  | poisson (r r' : ℝ) : SameFamily (.poisson r) (.poisson r')
  | gamma (c c' r r' : ℝ) : SameFamily (.gamma c r) (.gamma c' r')
  | binom (n n' : ℕ) (p p' : ℝ) : SameFamily (.binom n p) (.binom n' p')

theorem sameFamily_iff (a b : LeafPar) : SameFamily a b ↔ tag a = tag b := by
  constructor
  · rintro (_ | _) <;> rfl
  · intro h
    cases a <;> cases b <;> simp only [tag, Prod.mk.injEq] at h <;>
      first
        | (exfalso; omega)
        | (obtain ⟨-, rfl⟩ := h; constructor)
        | constructor

/-- **C79 (leaves).** Two leaves are compatible exactly when they are of the same family over the same variables (in any order)
with the same numbers of features, channels and repetitions. In particular a `Categorical` is not compatible with a `SignedCategorical`. -/
theorem C79_check_leaves (q q' : List Var) (C R C' R' : ℕ) (par par' : ℕ → ℕ → ℕ → LeafPar) :
    checkAll [.leaf q C R par, .leaf q' C' R' par'] = .ok () ↔
      SameFamily (par 0 0 0) (par' 0 0 0) ∧ (∀ v, v ∈ q ↔ v ∈ q') ∧ q.length = q'.length ∧ C = C' ∧ R = R' := by
  rw [(C79_check _).1, sameFamily_iff]
  have hq : (∀ v, v ∈ q ↔ v ∈ q') ↔ q.toFinset = q'.toFinset := by
    simp only [Finset.ext_iff, List.mem_toFinset]
  rw [hq]
  simp [Tpl.skel, Prod.ext_iff, eq_comm, and_assoc]
  tauto

example : ¬ checkAll [.leaf [0] 1 1 fun _ _ _ => .cat 2 fun _ => 1, .leaf [0] 1 1 fun _ _ _ => .scat 2 fun _ => 1] = .ok () := by
  rw [C79_check_leaves]
  rintro ⟨h, -⟩
  cases h

end BuildSocs
end Verif

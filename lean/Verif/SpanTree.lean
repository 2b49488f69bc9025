import Mathlib.Data.Fintype.Basic
import Mathlib.Data.Finset.Card
import Mathlib.Data.Fintype.Card
import Mathlib.Logic.Relation
import Mathlib.Algebra.BigOperators.Group.Finset.Basic
import Mathlib.Order.Fin.Basic
import Mathlib.Data.Finset.Max
import Mathlib.Tactic.Push

/-!
# Spanning trees: specification and the facts about connectivity used by C26, C27 and C32

Nothing here models code.  Vertices are `Fin n`, an edge is an ordered pair, read undirected.
-/

namespace Verif.Span

/-- An undirected edge. -/
abbrev Edge (n : ℕ) := Fin n × Fin n

variable {n : ℕ}

/-- `a` and `b` are joined by an edge of `S`. -/
def Adj (S : Finset (Edge n)) (a b : Fin n) : Prop := (a, b) ∈ S ∨ (b, a) ∈ S

/-- `a` and `b` are joined by a path in `S`. -/
def Conn (S : Finset (Edge n)) : Fin n → Fin n → Prop := Relation.ReflTransGen (Adj S)

/-- A spanning tree of the complete graph: `n - 1` edges `(a, b)` with `a < b` that connect all vertices. -/
def IsSpanningTree (T : Finset (Edge n)) : Prop :=
  (∀ e ∈ T, e.1 < e.2) ∧ T.card + 1 = n ∧ ∀ a b, Conn T a b

/-! ## Connectivity -/

theorem Adj.symm {S : Finset (Edge n)} {a b : Fin n} (h : Adj S a b) : Adj S b a := Or.symm h

theorem Conn.refl (S : Finset (Edge n)) (a : Fin n) : Conn S a a := Relation.ReflTransGen.refl

theorem Conn.trans {S : Finset (Edge n)} {a b c : Fin n} (h : Conn S a b) (h' : Conn S b c) : Conn S a c :=
  Relation.ReflTransGen.trans h h'

theorem Conn.symm {S : Finset (Edge n)} {a b : Fin n} (h : Conn S a b) : Conn S b a := by
  induction h with
  | refl => exact .refl S a
  | tail _ h2 ih => exact (Relation.ReflTransGen.single h2.symm).trans ih

theorem Conn.mono {S S' : Finset (Edge n)} (hs : S ⊆ S') {a b : Fin n} (h : Conn S a b) : Conn S' a b := by
  induction h with
  | refl => exact Relation.ReflTransGen.refl
  | tail _ h2 ih => exact Relation.ReflTransGen.tail ih (h2.imp (fun h => hs h) (fun h => hs h))

theorem Conn.edge {S : Finset (Edge n)} {e : Edge n} (h : e ∈ S) : Conn S e.1 e.2 :=
  Relation.ReflTransGen.single (Or.inl h)

theorem conn_empty {a b : Fin n} : Conn (∅ : Finset (Edge n)) a b ↔ a = b := by
  constructor
  · intro h
    induction h with
    | refl => rfl
    | tail _ h _ => rcases h with h | h <;> simp at h
  · rintro rfl; exact .refl _ _

/-- If every edge of `S` connects in `S'`, so does every path. -/
theorem Conn.of_edges {S S' : Finset (Edge n)} (h : ∀ e ∈ S, Conn S' e.1 e.2) {a b : Fin n} (hc : Conn S a b) :
    Conn S' a b := by
  induction hc with
  | refl => exact .refl _ _
  | tail _ h2 ih =>
    rcases h2 with h2 | h2
    · exact ih.trans (h _ h2)
    · exact ih.trans (h _ h2).symm

theorem conn_insert {S : Finset (Edge n)} {e : Edge n} {x y : Fin n} :
    Conn (insert e S) x y ↔ Conn S x y ∨ (Conn S x e.1 ∧ Conn S e.2 y) ∨ (Conn S x e.2 ∧ Conn S e.1 y) := by
  constructor
  · intro h
    induction h with
    | refl => exact Or.inl (.refl _ _)
    | @tail b c _ h2 ih =>
      have hbc : Conn S b c ∨ (b = e.1 ∧ c = e.2) ∨ (b = e.2 ∧ c = e.1) := by
        rcases h2 with h2 | h2
        · rcases Finset.mem_insert.1 h2 with h2 | h2
          · right; left; rw [← h2]; exact ⟨rfl, rfl⟩
          · left; exact Conn.edge h2
        · rcases Finset.mem_insert.1 h2 with h2 | h2
          · right; right; rw [← h2]; exact ⟨rfl, rfl⟩
          · left; exact (Conn.edge h2).symm
      rcases hbc with hbc | ⟨rfl, rfl⟩ | ⟨rfl, rfl⟩
      · rcases ih with ih | ⟨h1, h3⟩ | ⟨h1, h3⟩
        · exact Or.inl (ih.trans hbc)
        · exact Or.inr (Or.inl ⟨h1, h3.trans hbc⟩)
        · exact Or.inr (Or.inr ⟨h1, h3.trans hbc⟩)
      · rcases ih with ih | ⟨h1, h3⟩ | ⟨h1, h3⟩
        · exact Or.inr (Or.inl ⟨ih, .refl _ _⟩)
        · exact Or.inr (Or.inl ⟨h1, .refl _ _⟩)
        · exact Or.inl h1
      · rcases ih with ih | ⟨h1, h3⟩ | ⟨h1, h3⟩
        · exact Or.inr (Or.inr ⟨ih, .refl _ _⟩)
        · exact Or.inl h1
        · exact Or.inr (Or.inr ⟨h1, .refl _ _⟩)
  · have hs : S ⊆ insert e S := Finset.subset_insert _ _
    have he : Conn (insert e S) e.1 e.2 := Conn.edge (Finset.mem_insert_self _ _)
    rintro (h | ⟨h1, h2⟩ | ⟨h1, h2⟩)
    · exact h.mono hs
    · exact ((h1.mono hs).trans he).trans (h2.mono hs)
    · exact ((h1.mono hs).trans he.symm).trans (h2.mono hs)

theorem conn_insert_of_conn {S : Finset (Edge n)} {e : Edge n} (he : Conn S e.1 e.2) {x y : Fin n} :
    Conn (insert e S) x y ↔ Conn S x y := by
  rw [conn_insert]
  constructor
  · rintro (h | ⟨h1, h2⟩ | ⟨h1, h2⟩)
    · exact h
    · exact (h1.trans he).trans h2
    · exact (h1.trans he.symm).trans h2
  · exact Or.inl

/-! ## Counting components -/

open Classical in
/-- The least vertex of every component. -/
noncomputable def reps (S : Finset (Edge n)) : Finset (Fin n) :=
  Finset.univ.filter fun a => ∀ b, Conn S a b → a ≤ b

/-- Number of components. -/
noncomputable def comps (S : Finset (Edge n)) : ℕ := (reps S).card

theorem mem_reps {S : Finset (Edge n)} {a : Fin n} : a ∈ reps S ↔ ∀ b, Conn S a b → a ≤ b := by simp [reps]

open Classical in
/-- The least vertex of the component of `a`. -/
theorem exists_rep (S : Finset (Edge n)) (a : Fin n) : ∃ r ∈ reps S, Conn S a r := by
  obtain ⟨r, hr, hmin⟩ := Finset.exists_min_image (Finset.univ.filter fun b => Conn S a b) id ⟨a, by simp [Conn.refl]⟩
  simp only [Finset.mem_filter, Finset.mem_univ, true_and, id] at hr hmin
  exact ⟨r, mem_reps.2 fun b hb => hmin b (hr.trans hb), hr⟩

theorem rep_unique {S : Finset (Edge n)} {a b : Fin n} (ha : a ∈ reps S) (hb : b ∈ reps S) (h : Conn S a b) : a = b :=
  le_antisymm (mem_reps.1 ha b h) (mem_reps.1 hb a h.symm)

theorem comps_empty : comps (∅ : Finset (Edge n)) = n := by
  have : reps (∅ : Finset (Edge n)) = Finset.univ := by
    ext a
    rw [mem_reps]
    simp only [conn_empty, Finset.mem_univ, iff_true]
    rintro b rfl; exact le_rfl
  rw [comps, this, Finset.card_univ, Fintype.card_fin]

theorem reps_congr {S S' : Finset (Edge n)} (h : ∀ a b, Conn S a b ↔ Conn S' a b) : reps S = reps S' := by
  ext a
  rw [mem_reps, mem_reps]
  simp only [h]

theorem comps_insert_of_conn {S : Finset (Edge n)} {e : Edge n} (he : Conn S e.1 e.2) :
    comps (insert e S) = comps S := by
  rw [comps, comps, reps_congr fun a b => conn_insert_of_conn he]

theorem comps_insert {S : Finset (Edge n)} {e : Edge n} (he : ¬ Conn S e.1 e.2) :
    comps (insert e S) + 1 = comps S := by
  obtain ⟨r1, hr1, hc1⟩ := exists_rep S e.1
  obtain ⟨r2, hr2, hc2⟩ := exists_rep S e.2
  have hne : r1 ≠ r2 := by
    rintro rfl
    exact he (hc1.trans hc2.symm)
  have key : ∀ lo hi : Fin n, lo ∈ reps S → hi ∈ reps S → lo < hi → Conn (insert e S) lo hi →
      (∀ x y, Conn (insert e S) x y → Conn S x y ∨ (Conn S x lo ∧ Conn S hi y) ∨ (Conn S x hi ∧ Conn S lo y)) →
      comps (insert e S) + 1 = comps S := by
    intro lo hi hlo hhi hlt hc hins
    have : reps (insert e S) = (reps S).erase hi := by
      ext a
      rw [Finset.mem_erase, mem_reps, mem_reps]
      constructor
      · intro h
        refine ⟨?_, fun b hb => h b (hb.mono (Finset.subset_insert _ _))⟩
        rintro rfl
        exact absurd (h lo hc.symm) (not_le.2 hlt)
      · rintro ⟨ha, h⟩ b hb
        rcases hins a b hb with hb | ⟨h1, h2⟩ | ⟨h1, h2⟩
        · exact h b hb
        · have := rep_unique (mem_reps.2 h) hlo h1
          rw [this]
          exact hlt.le.trans (mem_reps.1 hhi b h2)
        · exact absurd (rep_unique (mem_reps.2 h) hhi h1) ha
    rw [comps, this, comps, Finset.card_erase_add_one hhi]
  have hs : S ⊆ insert e S := Finset.subset_insert _ _
  have hc : Conn (insert e S) r1 r2 :=
    ((hc1.symm.mono hs).trans (Conn.edge (Finset.mem_insert_self _ _))).trans (hc2.mono hs)
  rcases lt_or_gt_of_ne hne with h | h
  · refine key r1 r2 hr1 hr2 h hc fun x y hxy => ?_
    rcases conn_insert.1 hxy with h | ⟨h1, h2⟩ | ⟨h1, h2⟩
    · exact Or.inl h
    · exact Or.inr (Or.inl ⟨h1.trans hc1, hc2.symm.trans h2⟩)
    · exact Or.inr (Or.inr ⟨h1.trans hc2, hc1.symm.trans h2⟩)
  · refine key r2 r1 hr2 hr1 h hc.symm fun x y hxy => ?_
    rcases conn_insert.1 hxy with h | ⟨h1, h2⟩ | ⟨h1, h2⟩
    · exact Or.inl h
    · exact Or.inr (Or.inr ⟨h1.trans hc1, hc2.symm.trans h2⟩)
    · exact Or.inr (Or.inl ⟨h1.trans hc2, hc1.symm.trans h2⟩)

theorem comps_insert_ge (S : Finset (Edge n)) (e : Edge n) : comps S ≤ comps (insert e S) + 1 := by
  by_cases he : Conn S e.1 e.2
  · rw [comps_insert_of_conn he]; omega
  · rw [comps_insert he]

theorem comps_anti {S S' : Finset (Edge n)} (h : ∀ a b, Conn S a b → Conn S' a b) : comps S' ≤ comps S :=
  Finset.card_le_card fun _ ha => mem_reps.2 fun b hb => mem_reps.1 ha b (h _ _ hb)

theorem comps_union_ge (A B : Finset (Edge n)) : comps A ≤ comps (A ∪ B) + B.card := by
  induction B using Finset.induction_on with
  | empty => simp
  | insert e B he ih =>
    rw [Finset.union_insert, Finset.card_insert_of_notMem he]
    have := comps_insert_ge (A ∪ B) e
    omega

theorem comps_eq_one {S : Finset (Edge n)} (hn : 0 < n) (h : ∀ a b, Conn S a b) : comps S = 1 := by
  rw [comps, Finset.card_eq_one]
  obtain ⟨r, hr, _⟩ := exists_rep S ⟨0, hn⟩
  refine ⟨r, Finset.eq_singleton_iff_unique_mem.2 ⟨hr, fun a ha => rep_unique ha hr (h a r)⟩⟩

theorem conn_of_comps_le_one {S : Finset (Edge n)} (h : comps S ≤ 1) (a b : Fin n) : Conn S a b := by
  obtain ⟨r1, hr1, hc1⟩ := exists_rep S a
  obtain ⟨r2, hr2, hc2⟩ := exists_rep S b
  have : r1 = r2 := Finset.card_le_one.1 h r1 hr1 r2 hr2
  subst this
  exact hc1.trans hc2.symm

/-- A forest: as few components as its number of edges allows. -/
def Forest (S : Finset (Edge n)) : Prop := comps S + S.card = n

theorem comps_add_card_ge (S : Finset (Edge n)) : n ≤ comps S + S.card := by
  have := comps_union_ge (∅ : Finset (Edge n)) S
  rw [comps_empty, Finset.empty_union] at this
  exact this

theorem Forest.subset {A S : Finset (Edge n)} (h : Forest S) (hA : A ⊆ S) : Forest A := by
  have h1 := comps_add_card_ge A
  have h2 := comps_union_ge A (S \ A)
  rw [Finset.union_sdiff_of_subset hA, Finset.card_sdiff_of_subset hA] at h2
  have := Finset.card_le_card hA
  unfold Forest at *
  omega

theorem IsSpanningTree.pos {T : Finset (Edge n)} (h : IsSpanningTree T) : 0 < n := by have := h.2.1; omega

theorem IsSpanningTree.forest {T : Finset (Edge n)} (h : IsSpanningTree T) : Forest T := by
  unfold Forest
  rw [comps_eq_one h.pos h.2.2]
  have := h.2.1
  omega

theorem spanning_of_forest {T : Finset (Edge n)} (h1 : ∀ e ∈ T, e.1 < e.2) (h2 : Forest T) (h3 : ∀ a b, Conn T a b)
    (hn : 0 < n) : IsSpanningTree T := by
  refine ⟨h1, ?_, h3⟩
  unfold Forest at h2
  rw [comps_eq_one hn h3] at h2
  omega

theorem Forest.insert {S : Finset (Edge n)} {e : Edge n} (h : Forest S) (he : ¬ Conn S e.1 e.2) :
    Forest (insert e S) := by
  have hm : e ∉ S := fun hm => he (Conn.edge hm)
  have := comps_insert he
  unfold Forest at *
  rw [Finset.card_insert_of_notMem hm]
  omega

/-- Edges of a forest are not implied by the others. -/
theorem Forest.not_conn_erase {S : Finset (Edge n)} {e : Edge n} (h : Forest S) (he : e ∈ S) :
    ¬ Conn (S.erase e) e.1 e.2 := by
  intro hc
  have h1 := h.subset (Finset.erase_subset e S)
  have h2 := comps_insert_of_conn hc
  rw [Finset.insert_erase he] at h2
  have := Finset.card_erase_add_one he
  unfold Forest at *
  omega

theorem Forest.empty : Forest (∅ : Finset (Edge n)) := by
  unfold Forest; rw [comps_empty]; simp

/-- Exchange: if `e` joins the two sides of a cut, some tree edge across the cut can be replaced by `e`. -/
theorem exchange {T : Finset (Edge n)} (hT : IsSpanningTree T) {e : Edge n} (hlt : e.1 < e.2) (heT : e ∉ T)
    (side : Fin n → Prop) (he : ¬ (side e.1 ↔ side e.2)) :
    ∃ f ∈ T, ¬ (side f.1 ↔ side f.2) ∧ IsSpanningTree (insert e (T.erase f)) := by
  classical
  -- tree edges across the cut, added one at a time to the others
  have key : ∀ X : Finset (Edge n), X ⊆ T.filter (fun f => ¬ (side f.1 ↔ side f.2)) →
      Conn (T.filter (fun f => side f.1 ↔ side f.2) ∪ X) e.1 e.2 →
      ∃ B : Finset (Edge n), ∃ f ∈ T, f ∉ B ∧ B ⊆ T ∧ ¬ (side f.1 ↔ side f.2) ∧ ¬ Conn B e.1 e.2 ∧
        Conn (insert f B) e.1 e.2 := by
    intro X
    induction X using Finset.induction_on with
    | empty =>
      intro _ hc
      exfalso
      rw [Finset.union_empty] at hc
      have : ∀ a b, Conn (T.filter fun f => side f.1 ↔ side f.2) a b → (side a ↔ side b) := by
        intro a b h
        induction h with
        | refl => exact Iff.rfl
        | tail _ h2 ih =>
          rcases h2 with h2 | h2
          · exact ih.trans (Finset.mem_filter.1 h2).2
          · exact ih.trans (Finset.mem_filter.1 h2).2.symm
      exact he (this _ _ hc)
    | insert f X hf ih =>
      intro hX hc
      have hX' := (Finset.insert_subset_iff.1 hX)
      by_cases h : Conn (T.filter (fun f => side f.1 ↔ side f.2) ∪ X) e.1 e.2
      · exact ih hX'.2 h
      · have hfm := Finset.mem_filter.1 hX'.1
        refine ⟨_, f, hfm.1, ?_, ?_, hfm.2, h, ?_⟩
        · rw [Finset.mem_union, not_or]
          exact ⟨fun hm => hfm.2 (Finset.mem_filter.1 hm).2, hf⟩
        · exact Finset.union_subset (Finset.filter_subset _ _) (hX'.2.trans (Finset.filter_subset _ _))
        · rwa [Finset.union_insert] at hc
  obtain ⟨B, f, hfT, hfB, hBT, hfs, hnc, hc⟩ := key _ (Finset.Subset.refl _) (by
    have : T.filter (fun f => side f.1 ↔ side f.2) ∪ T.filter (fun f => ¬ (side f.1 ↔ side f.2)) = T :=
      Finset.filter_union_filter_not_eq _ _
    rw [this]
    exact hT.2.2 _ _)
  refine ⟨f, hfT, hfs, ?_⟩
  have hB : B ⊆ T.erase f := fun x hx => Finset.mem_erase.2 ⟨fun h => hfB (h ▸ hx), hBT hx⟩
  have hf : Conn (insert e B) f.1 f.2 := by
    have hs : B ⊆ insert e B := Finset.subset_insert _ _
    have hee : Conn (insert e B) e.1 e.2 := Conn.edge (Finset.mem_insert_self _ _)
    rcases conn_insert.1 hc with h | ⟨h1, h2⟩ | ⟨h1, h2⟩
    · exact absurd h hnc
    · exact ((h1.symm.mono hs).trans hee).trans (h2.symm.mono hs)
    · exact ((h2.mono hs).trans hee.symm).trans (h1.mono hs)
  have hall : ∀ a b, Conn (insert e (T.erase f)) a b := by
    intro a b
    refine Conn.of_edges (fun g hg => ?_) (hT.2.2 a b)
    by_cases hgf : g = f
    · subst hgf
      exact hf.mono (Finset.insert_subset_insert _ hB)
    · exact Conn.edge (Finset.mem_insert_of_mem (Finset.mem_erase.2 ⟨hgf, hg⟩))
  have hne : e ∉ T.erase f := fun h => heT (Finset.mem_of_mem_erase h)
  refine ⟨?_, ?_, hall⟩
  · intro g hg
    rcases Finset.mem_insert.1 hg with rfl | hg
    · exact hlt
    · exact hT.1 g (Finset.mem_of_mem_erase hg)
  · rw [Finset.card_insert_of_notMem hne, Finset.card_erase_add_one hfT]
    exact hT.2.1

end Verif.Span

import Verif.MstProps
import Mathlib.Data.List.MinMax

/-!
# Kruskal and top-k spanning trees: properties C26 and C27
-/

namespace Verif.Mst

open Verif.Span

variable {n : ℕ}

theorem reuse_nil (w : Edge n → ℝ) : reuse w [] [] = fun e => (w e : EReal) := by
  funext e; simp [reuse]

theorem cls_nil {T : Finset (Edge n)} : Cls [] [] T ↔ IsSpanningTree T := by simp [Cls]

theorem sum_map_eq_cost (w : Edge n → ℝ) {l : List (Edge n)} (h : l.Nodup) : (l.map w).sum = cost w l.toFinset := by
  unfold cost; rw [List.sum_toFinset _ h]

/-- C26: on a complete graph with at least one node and finite weights, `kruskal_mst_complete` never raises and returns
the edges of a spanning tree, without repetition, of least total weight. -/
theorem C26_kruskal_min (hn : 0 < n) (w : Edge n → ℝ) :
    ∃ l, kruskal n (fun e => (w e : EReal)) true = .ok l ∧ l.Nodup ∧ IsSpanningTree l.toFinset ∧
      ∀ T, IsSpanningTree T → ∑ e ∈ l.toFinset, w e ≤ ∑ e ∈ T, w e := by
  obtain ⟨h1, h2, _⟩ := kr_tree hn (fun e => (w e : EReal)) true
  refine ⟨_, kruskal_eq hn _ true, h2, h1, fun T hT => ?_⟩
  have := (kr_class hn w (inc := []) (exc := []) (by simp) (by simp) (cls_nil.2 hT)).2
  rw [reuse_nil] at this
  exact this

theorem order_false (W : Edge n → EReal) : order n W false = order n (fun e => - W e) true := by
  unfold order; simp

/-- C26 for `minimize=False`: a spanning tree of greatest total weight. -/
theorem C26_kruskal_max (hn : 0 < n) (w : Edge n → ℝ) :
    ∃ l, kruskal n (fun e => (w e : EReal)) false = .ok l ∧ l.Nodup ∧ IsSpanningTree l.toFinset ∧
      ∀ T, IsSpanningTree T → ∑ e ∈ T, w e ≤ ∑ e ∈ l.toFinset, w e := by
  have e : kruskal n (fun e => (w e : EReal)) false = kruskal n (fun e => ((- w e : ℝ) : EReal)) true := by
    unfold kruskal
    rw [order_false]
    simp only [EReal.coe_neg]
  rw [e]
  obtain ⟨l, h1, h2, h3, h4⟩ := C26_kruskal_min hn (fun e => - w e)
  refine ⟨l, h1, h2, h3, fun T hT => ?_⟩
  have := h4 T hT
  simp only [Finset.sum_neg_distrib] at this
  linarith

/-- C26: without nodes Kruskal refuses. -/
theorem C26_kruskal_empty (w : Edge 0 → EReal) (mi : Bool) : kruskal 0 w mi = .error .invalidParameter := rfl

/-- A concrete spanning tree: the hypotheses above are not void. -/
theorem C26_star_tree : IsSpanningTree (n := 3) {(0, 1), (0, 2)} := by
  refine ⟨by decide, by decide, ?_⟩
  have h1 : Conn (n := 3) {(0, 1), (0, 2)} 0 1 := Conn.edge (e := ((0 : Fin 3), (1 : Fin 3))) (by decide)
  have h2 : Conn (n := 3) {(0, 1), (0, 2)} 0 2 := Conn.edge (e := ((0 : Fin 3), (2 : Fin 3))) (by decide)
  have h : ∀ a : Fin 3, Conn (n := 3) {(0, 1), (0, 2)} 0 a := by
    intro a
    fin_cases a
    · exact Conn.refl _ _
    · exact h1
    · exact h2
  exact fun a b => (h a).symm.trans (h b)

/-! ## Constrained trees -/

/-- C26: `mst_with_constraints` returns the cheapest spanning tree containing the included and avoiding the excluded
edges, or nothing if there is none. -/
theorem C26_constrained (hn : 0 < n) (w : Edge n → ℝ) {inc exc : List (Edge n)} (hi : ∀ e ∈ inc, e.1 < e.2)
    (hx : ∀ e ∈ exc, e.1 < e.2) :
    (∃ t c, mstWith w inc exc true = .ok (some (t, c)) ∧ t.Nodup ∧ Cls inc exc t.toFinset ∧
        c = cost w t.toFinset ∧ ∀ T, Cls inc exc T → cost w t.toFinset ≤ cost w T) ∨
      (mstWith w inc exc true = .ok none ∧ ∀ T, ¬ Cls inc exc T) := by
  obtain ⟨h1, h2, h3⟩ := kr_tree hn (reuse w inc exc) true
  have hk := kruskal_eq hn (reuse w inc exc) true
  by_cases hc : ∃ T, Cls inc exc T
  · left
    obtain ⟨T, hT⟩ := hc
    have hcls := (kr_class hn w hi hx hT).1
    refine ⟨_, _, ?_, h2, hcls, rfl, fun T hT => (kr_class hn w hi hx hT).2⟩
    unfold mstWith
    rw [hk]
    simp only
    rw [map_canon hi, map_canon hx, if_neg, if_neg, sum_map_eq_cost w h2]
    · rintro ⟨e, he⟩
      rw [Finset.mem_inter] at he
      exact hcls.2.2 e (List.mem_toFinset.1 he.2) he.1
    · rw [not_not]
      intro e he
      exact hcls.2.1 e (List.mem_toFinset.1 he)
  · right
    have hno : ∀ T, ¬ Cls inc exc T := fun T hT => hc ⟨T, hT⟩
    refine ⟨?_, hno⟩
    unfold mstWith
    rw [hk]
    simp only
    rw [map_canon hi, map_canon hx]
    split
    · rfl
    · rename_i hs
      rw [not_not] at hs
      split
      · rfl
      · rename_i hne
        exfalso
        refine hno _ ⟨h1, fun e he => hs (List.mem_toFinset.2 he), fun e he h => hne ⟨e, ?_⟩⟩
        rw [Finset.mem_inter]
        exact ⟨h, List.mem_toFinset.2 he⟩

/-- What holds of every heap entry. -/
structure Good (w : Edge n → ℝ) (E : Entry n) : Prop where
  nodup : E.mst.Nodup
  cls : Cls E.inc E.exc E.mst.toFinset
  tot : E.total = cost w E.mst.toFinset
  min : ∀ T, Cls E.inc E.exc T → cost w E.mst.toFinset ≤ cost w T
  hi : ∀ e ∈ E.inc, e.1 < e.2
  hx : ∀ e ∈ E.exc, e.1 < e.2

/-- The branching loop with the pending edge already moved. -/
noncomputable def branch' (w : Edge n → ℝ) (mi : Bool) :
    List (Edge n) → List (Edge n) → List (Edge n) → List (Entry n)
  | [], _, _ => []
  | e :: es, I, X =>
    if e ∈ I then branch' w mi es I X
    else
      (match mstWith w I (X ++ [e]) mi with
        | .ok (some (t, c)) => [⟨c, t, I, X ++ [e]⟩]
        | _ => []) ++ branch' w mi es (I ++ [e]) X

theorem branch_true (w : Edge n → ℝ) (mi : Bool) (es : List (Edge n)) : ∀ (I X : List (Edge n)) (l : Edge n), l ∉ es →
    es.Nodup → branch w mi es I (X ++ [l]) true = branch' w mi es (I ++ [l]) X := by
  induction es with
  | nil => intro I X l _ _; rfl
  | cons e es ih =>
    intro I X l hl hnd
    rw [List.nodup_cons] at hnd
    have hle : l ≠ e ∧ l ∉ es := by simpa using hl
    unfold branch branch'
    have : e ∈ I ++ [l] ↔ e ∈ I := by
      rw [List.mem_append, List.mem_singleton]
      exact ⟨fun h => h.resolve_right (fun h => hle.1 h.symm), Or.inl⟩
    by_cases h : e ∈ I
    · rw [if_pos h, if_pos (this.2 h)]
      exact ih I X l hle.2 hnd.2
    · rw [if_neg h, if_neg (fun h' => h (this.1 h'))]
      simp only [if_true, List.getLast?_concat, Option.toList_some, List.dropLast_concat]
      rw [ih (I ++ [l]) X e hnd.1 hnd.2]
      rcases mstWith w (I ++ [l]) (X ++ [e]) mi with _ | _ | ⟨t, c⟩ <;> rfl

theorem branch_false (w : Edge n → ℝ) (mi : Bool) (es : List (Edge n)) : ∀ (I X : List (Edge n)), es.Nodup →
    branch w mi es I X false = branch' w mi es I X := by
  induction es with
  | nil => intro I X _; rfl
  | cons e es ih =>
    intro I X hnd
    rw [List.nodup_cons] at hnd
    unfold branch branch'
    by_cases h : e ∈ I
    · rw [if_pos h, if_pos h]
      exact ih I X hnd.2
    · rw [if_neg h, if_neg h]
      simp only [Bool.false_eq_true, if_false]
      rw [branch_true w mi es I X e hnd.1 hnd.2]
      rcases mstWith w I (X ++ [e]) mi with _ | _ | ⟨t, c⟩ <;> rfl

theorem cls_exc {I X : List (Edge n)} {e : Edge n} {T : Finset (Edge n)} :
    Cls I (X ++ [e]) T ↔ Cls I X T ∧ e ∉ T := by
  unfold Cls
  simp only [List.mem_append, List.mem_singleton]
  constructor
  · rintro ⟨h1, h2, h3⟩
    exact ⟨⟨h1, h2, fun x hx => h3 x (Or.inl hx)⟩, h3 e (Or.inr rfl)⟩
  · rintro ⟨⟨h1, h2, h3⟩, h4⟩
    refine ⟨h1, h2, fun x hx => ?_⟩
    rcases hx with hx | rfl
    · exact h3 x hx
    · exact h4

theorem cls_inc {I X : List (Edge n)} {e : Edge n} {T : Finset (Edge n)} :
    Cls (I ++ [e]) X T ↔ Cls I X T ∧ e ∈ T := by
  unfold Cls
  simp only [List.mem_append, List.mem_singleton]
  constructor
  · rintro ⟨h1, h2, h3⟩
    exact ⟨⟨h1, fun x hx => h2 x (Or.inl hx), h3⟩, h2 e (Or.inr rfl)⟩
  · rintro ⟨⟨h1, h2, h3⟩, h4⟩
    refine ⟨h1, fun x hx => ?_, h3⟩
    rcases hx with hx | rfl
    · exact h2 x hx
    · exact h4

/-- Disjoint classes. -/
def Disj (E F : Entry n) : Prop := ∀ T, Cls E.inc E.exc T → ¬ Cls F.inc F.exc T

theorem branch'_spec (hn : 0 < n) (w : Edge n → ℝ) (es : List (Edge n)) : ∀ (I X : List (Edge n)),
    (∀ e ∈ es, e.1 < e.2) → (∀ e ∈ I, e.1 < e.2) → (∀ e ∈ X, e.1 < e.2) →
    (∀ E ∈ branch' w true es I X, Good w E ∧ ∀ T, Cls E.inc E.exc T → Cls I X T ∧ ∃ e ∈ es, e ∉ T) ∧
    (branch' w true es I X).Pairwise Disj ∧
    ∀ T, Cls I X T → (∃ e ∈ es, e ∉ T) → ∃ E ∈ branch' w true es I X, Cls E.inc E.exc T := by
  induction es with
  | nil =>
    intro I X _ _ _
    refine ⟨by simp [branch'], by simp [branch'], ?_⟩
    rintro T _ ⟨e, he, _⟩
    simp at he
  | cons e es ih =>
    intro I X hes hI hX
    have he := hes e (by simp)
    have hes' : ∀ x ∈ es, x.1 < x.2 := fun x hx => hes x (by simp [hx])
    unfold branch'
    by_cases h : e ∈ I
    · rw [if_pos h]
      obtain ⟨h1, h2, h3⟩ := ih I X hes' hI hX
      refine ⟨fun E hE => ⟨(h1 E hE).1, fun T hT => ?_⟩, h2, fun T hT hex => ?_⟩
      · obtain ⟨a, b, hb, hb'⟩ := (h1 E hE).2 T hT
        exact ⟨a, b, by simp [hb], hb'⟩
      · obtain ⟨b, hb, hb'⟩ := hex
        rcases List.mem_cons.1 hb with rfl | hb
        · exact absurd (hT.2.1 _ h) hb'
        · exact h3 T hT ⟨b, hb, hb'⟩
    · rw [if_neg h]
      have hI' : ∀ x ∈ I ++ [e], x.1 < x.2 := by
        intro x hx
        rcases List.mem_append.1 hx with hx | hx
        · exact hI x hx
        · rw [List.mem_singleton.1 hx]; exact he
      have hX' : ∀ x ∈ X ++ [e], x.1 < x.2 := by
        intro x hx
        rcases List.mem_append.1 hx with hx | hx
        · exact hX x hx
        · rw [List.mem_singleton.1 hx]; exact he
      obtain ⟨h1, h2, h3⟩ := ih (I ++ [e]) X hes' hI' hX
      have tail1 : ∀ E ∈ branch' w true es (I ++ [e]) X,
          Good w E ∧ ∀ T, Cls E.inc E.exc T → Cls I X T ∧ ∃ x ∈ e :: es, x ∉ T := by
        intro E hE
        refine ⟨(h1 E hE).1, fun T hT => ?_⟩
        obtain ⟨a, b, hb, hb'⟩ := (h1 E hE).2 T hT
        exact ⟨(cls_inc.1 a).1, b, by simp [hb], hb'⟩
      have cover : ∀ T, Cls I X T → e ∈ T → (∃ x ∈ e :: es, x ∉ T) →
          ∃ E ∈ branch' w true es (I ++ [e]) X, Cls E.inc E.exc T := by
        rintro T hT heT ⟨b, hb, hb'⟩
        rcases List.mem_cons.1 hb with rfl | hb
        · exact absurd heT hb'
        · exact h3 T (cls_inc.2 ⟨hT, heT⟩) ⟨b, hb, hb'⟩
      rcases C26_constrained hn w (inc := I) (exc := X ++ [e]) hI hX' with ⟨t, c, hm, ht1, ht2, ht3, ht4⟩ | ⟨hm, hno⟩
      · rw [hm]
        simp only [List.singleton_append]
        refine ⟨?_, ?_, ?_⟩
        · intro E hE
          rcases List.mem_cons.1 hE with rfl | hE
          · refine ⟨⟨ht1, ht2, ht3, ht4, hI, hX'⟩, fun T hT => ?_⟩
            exact ⟨(cls_exc.1 hT).1, e, by simp, (cls_exc.1 hT).2⟩
          · exact tail1 E hE
        · rw [List.pairwise_cons]
          refine ⟨fun E hE T hT hT' => ?_, h2⟩
          exact (cls_exc.1 hT).2 (cls_inc.1 ((h1 E hE).2 T hT').1).2
        · intro T hT hex
          by_cases heT : e ∈ T
          · obtain ⟨E, hE, hc⟩ := cover T hT heT hex
            exact ⟨E, by simp [hE], hc⟩
          · exact ⟨_, List.mem_cons_self, cls_exc.2 ⟨hT, heT⟩⟩
      · rw [hm]
        simp only [List.nil_append]
        refine ⟨tail1, h2, fun T hT hex => ?_⟩
        by_cases heT : e ∈ T
        · exact cover T hT heT hex
        · exact absurd (cls_exc.2 ⟨hT, heT⟩) (hno T)

/-- `heappop` returns an entry with least total. -/
def PopsMin (pick : List (Entry n) → ℕ) : Prop :=
  ∀ h : List (Entry n), h ≠ [] → ∃ hp : pick h < h.length, ∀ E ∈ h, (h[pick h]).total ≤ E.total

/-- Such a choice exists. -/
theorem C27_pick_exists : ∃ pick : List (Entry n) → ℕ, PopsMin pick := by
  have key : ∀ h : List (Entry n), ∃ i, h ≠ [] → ∃ hp : i < h.length, ∀ E ∈ h, (h[i]).total ≤ E.total := by
    intro h
    by_cases hne : h = []
    · exact ⟨0, fun h' => absurd hne h'⟩
    · have : (Finset.univ : Finset (Fin h.length)).Nonempty :=
        ⟨⟨0, List.length_pos_of_ne_nil hne⟩, Finset.mem_univ _⟩
      obtain ⟨i, _, hi⟩ := Finset.exists_min_image Finset.univ (fun i : Fin h.length => (h[i]).total) this
      refine ⟨i, fun _ => ⟨i.2, fun E hE => ?_⟩⟩
      obtain ⟨j, hj, rfl⟩ := List.getElem_of_mem hE
      exact hi ⟨j, hj⟩ (Finset.mem_univ _)
  exact ⟨fun h => (key h).choose, fun h => (key h).choose_spec⟩

theorem spanning_eq_of_subset {S T : Finset (Edge n)} (hS : IsSpanningTree S) (hT : IsSpanningTree T) (h : S ⊆ T) :
    S = T := Finset.eq_of_subset_of_card_le h (by have := hS.2.1; have := hT.2.1; omega)

theorem topkLoop_spec (hn : 0 < n) (w : Edge n → ℝ) (pick : List (Entry n) → ℕ) (hp : PopsMin pick) (r : ℕ) :
    ∀ heap : List (Entry n), (∀ E ∈ heap, Good w E) → heap.Pairwise Disj →
    let out := topkLoop w true pick r heap
    (∀ t ∈ out, t.Nodup ∧ ∃ E ∈ heap, Cls E.inc E.exc t.toFinset) ∧
    (out.map List.toFinset).Nodup ∧
    out.Pairwise (fun a b => cost w a.toFinset ≤ cost w b.toFinset) ∧
    (∀ T, (∃ E ∈ heap, Cls E.inc E.exc T) → T ∉ out.map List.toFinset → ∀ t ∈ out, cost w t.toFinset ≤ cost w T) ∧
    out.length ≤ r ∧
    (out.length < r → ∀ T, (∃ E ∈ heap, Cls E.inc E.exc T) → T ∈ out.map List.toFinset) := by
  induction r with
  | zero =>
    intro heap _ _
    simp [topkLoop]
  | succ r ih =>
    intro heap hg hd
    by_cases hne : heap = []
    · subst hne
      simp [topkLoop]
    obtain ⟨hlt, hmin⟩ := hp heap hne
    set i := pick heap with hi
    have hmem : heap[i] ∈ heap := List.getElem_mem hlt
    set E := heap[i] with hE
    have hEg := hg E hmem
    have hltE : ∀ e ∈ E.mst, e.1 < e.2 := fun e he => hEg.cls.1.1 e (List.mem_toFinset.2 he)
    have hperm : (E :: heap.eraseIdx i).Perm heap := by rw [hE]; exact List.getElem_cons_eraseIdx_perm hlt
    have hrun : topkLoop w true pick (r + 1) heap =
        E.mst :: topkLoop w true pick r (heap.eraseIdx i ++ branch' w true E.mst E.inc E.exc) := by
      conv_lhs => unfold topkLoop
      rw [← hi, List.getElem?_eq_getElem hlt]
      simp only
      rw [← hE, map_canon hltE, map_canon hEg.hi, map_canon hEg.hx, branch_false w true _ _ _ hEg.nodup]
    obtain ⟨b1, b2, b3⟩ := branch'_spec hn w E.mst E.inc E.exc hltE hEg.hi hEg.hx
    have hpw : (E :: heap.eraseIdx i).Pairwise Disj := by
      refine (hperm.pairwise_iff ?_).2 hd
      intro a b h T hT hT'
      exact h T hT' hT
    rw [List.pairwise_cons] at hpw
    set heap' := heap.eraseIdx i ++ branch' w true E.mst E.inc E.exc with hheap'
    have hg' : ∀ F ∈ heap', Good w F := by
      intro F hF
      rcases List.mem_append.1 hF with hF | hF
      · exact hg F (hperm.subset (List.mem_cons_of_mem _ hF))
      · exact (b1 F hF).1
    have hd' : heap'.Pairwise Disj := by
      rw [hheap', List.pairwise_append]
      refine ⟨hpw.2, b2, fun F hF G hG T hT hT' => ?_⟩
      exact hpw.1 F hF T ((b1 G hG).2 T hT').1 hT
    -- the classes of the new heap are those of the old one without the popped tree
    have hcl : ∀ T, (∃ F ∈ heap', Cls F.inc F.exc T) ↔ (∃ F ∈ heap, Cls F.inc F.exc T) ∧ T ≠ E.mst.toFinset := by
      intro T
      constructor
      · rintro ⟨F, hF, hT⟩
        rcases List.mem_append.1 hF with hF | hF
        · refine ⟨⟨F, hperm.subset (List.mem_cons_of_mem _ hF), hT⟩, fun h => ?_⟩
          exact hpw.1 F hF T (h ▸ hEg.cls) hT
        · obtain ⟨h1, e, he, he'⟩ := (b1 F hF).2 T hT
          exact ⟨⟨E, hmem, h1⟩, fun h => he' (h ▸ List.mem_toFinset.2 he)⟩
      · rintro ⟨⟨F, hF, hT⟩, hneT⟩
        rcases List.mem_cons.1 (hperm.symm.subset hF) with rfl | hF'
        · have : ∃ e ∈ E.mst, e ∉ T := by
            by_contra hcon
            push Not at hcon
            exact hneT (spanning_eq_of_subset hEg.cls.1 hT.1 (fun e he => hcon e (List.mem_toFinset.1 he))).symm
          obtain ⟨G, hG, hG'⟩ := b3 T hT this
          exact ⟨G, List.mem_append.2 (Or.inr hG), hG'⟩
        · exact ⟨F, List.mem_append.2 (Or.inl hF'), hT⟩
    have hbest : ∀ T, (∃ F ∈ heap, Cls F.inc F.exc T) → cost w E.mst.toFinset ≤ cost w T := by
      rintro T ⟨F, hF, hT⟩
      rw [← hEg.tot]
      exact (hmin F hF).trans ((hg F hF).tot ▸ (hg F hF).min T hT)
    obtain ⟨i1, i2, i3, i4, i5, i6⟩ := ih heap' hg' hd'
    rw [hrun]
    intro out
    set rest := topkLoop w true pick r heap' with hrest
    have hnotin : E.mst.toFinset ∉ rest.map List.toFinset := by
      intro h
      obtain ⟨t, ht, hte⟩ := List.mem_map.1 h
      obtain ⟨_, F, hF, hc⟩ := i1 t ht
      exact ((hcl _).1 ⟨F, hF, hc⟩).2 hte
    refine ⟨?_, ?_, ?_, ?_, ?_, ?_⟩
    · intro t ht
      rcases List.mem_cons.1 ht with rfl | ht
      · exact ⟨hEg.nodup, E, hmem, hEg.cls⟩
      · obtain ⟨a, F, hF, hc⟩ := i1 t ht
        exact ⟨a, ((hcl _).1 ⟨F, hF, hc⟩).1⟩
    · show ((E.mst :: rest).map List.toFinset).Nodup
      rw [List.map_cons, List.nodup_cons]
      exact ⟨hnotin, i2⟩
    · show (E.mst :: rest).Pairwise _
      rw [List.pairwise_cons]
      refine ⟨fun t ht => ?_, i3⟩
      obtain ⟨_, F, hF, hc⟩ := i1 t ht
      exact hbest _ ((hcl _).1 ⟨F, hF, hc⟩).1
    · intro T hT hTo t ht
      rw [List.map_cons, List.mem_cons, not_or] at hTo
      rcases List.mem_cons.1 ht with rfl | ht
      · exact hbest T hT
      · exact i4 T ((hcl T).2 ⟨hT, hTo.1⟩) hTo.2 t ht
    · show rest.length + 1 ≤ r + 1
      omega
    · intro hlen T hT
      have hlen' : rest.length < r := by
        have : rest.length + 1 < r + 1 := hlen
        omega
      rw [List.map_cons, List.mem_cons]
      by_cases h : T = E.mst.toFinset
      · exact Or.inl h
      · exact Or.inr (i6 hlen' T ((hcl T).2 ⟨hT, h⟩))

/-- C27: for every finite weight matrix and every `num_trees >= 1`, `topk_mst(weights, num_trees=k)` does not raise and
returns at most `k` spanning trees that are pairwise different, in order of non-decreasing total weight; no spanning tree
that was left out is cheaper than one that was returned; and fewer than `k` trees come back only when these are all the
spanning trees there are. -/
theorem C27_topk (hn : 0 < n) (w : Edge n → ℝ) {k : ℕ} (hk : 1 ≤ k) (pick : List (Entry n) → ℕ) (hp : PopsMin pick) :
    ∃ out, topk w k true pick = .ok out ∧
      (∀ t ∈ out, t.Nodup ∧ IsSpanningTree t.toFinset) ∧
      (out.map List.toFinset).Nodup ∧
      out.Pairwise (fun a b => (a.map w).sum ≤ (b.map w).sum) ∧
      (∀ T, IsSpanningTree T → T ∉ out.map List.toFinset → ∀ t ∈ out, (t.map w).sum ≤ ∑ e ∈ T, w e) ∧
      1 ≤ out.length ∧ out.length ≤ k ∧
      (out.length < k → ∀ T, IsSpanningTree T → T ∈ out.map List.toFinset) := by
  rcases C26_constrained hn w (inc := []) (exc := []) (by simp) (by simp) with ⟨t, c, hm, ht1, ht2, ht3, ht4⟩ | ⟨_, hno⟩
  · have hg : ∀ E ∈ [(⟨c, t, [], []⟩ : Entry n)], Good w E := by
      intro E hE
      rw [List.mem_singleton.1 hE]
      exact ⟨ht1, ht2, ht3, ht4, by simp, by simp⟩
    have hcl : ∀ T, (∃ E ∈ [(⟨c, t, [], []⟩ : Entry n)], Cls E.inc E.exc T) ↔ IsSpanningTree T := by
      intro T; simp [Cls]
    obtain ⟨i1, i2, i3, i4, i5, i6⟩ := topkLoop_spec hn w pick hp k [⟨c, t, [], []⟩] hg (by simp)
    have hs : ∀ t' ∈ topkLoop w true pick k [⟨c, t, [], []⟩], (t'.map w).sum = cost w t'.toFinset :=
      fun t' ht => sum_map_eq_cost w (i1 t' ht).1
    refine ⟨topkLoop w true pick k [⟨c, t, [], []⟩], ?_, fun t ht => ⟨(i1 t ht).1, (hcl _).1 (i1 t ht).2⟩, i2, ?_, ?_, ?_,
      i5, fun h T hT => i6 h T ((hcl T).2 hT)⟩
    · unfold topk
      rw [if_neg (by omega), hm]
    · refine List.Pairwise.imp_of_mem (fun {a b} ha hb h => ?_) i3
      rw [hs a ha, hs b hb]; exact h
    · intro T hT hTo t ht
      rw [hs t ht]
      exact i4 T ((hcl T).2 hT) hTo t ht
    · by_contra hc
      have h0 : (topkLoop w true pick k [⟨c, t, [], []⟩]).length = 0 := by omega
      have := i6 (by omega) t.toFinset ((hcl _).2 ht2.1)
      rw [List.length_eq_zero_iff.1 h0] at this
      simp at this
  · exfalso
    exact hno _ (cls_nil.2 (kr_tree hn (fun _ => (0 : EReal)) true).1)

/-- C27: `num_trees < 1` is refused. -/
theorem C27_rejects (w : Edge n → ℝ) (mi : Bool) (pick : List (Entry n) → ℕ) :
    topk w 0 mi pick = .error .invalidParameter := rfl

/-! ## `minimize=False` -/

theorem reuse_false_none (hn : 0 < n) (w : Edge n → ℝ) {inc exc : List (Edge n)} (hx : ∀ e ∈ exc, e.1 < e.2)
    (hne : exc ≠ []) : mstWith w inc exc false = .ok none := by
  obtain ⟨h1, h2, h3⟩ := kr_tree hn (reuse w inc exc) false
  have hk := kruskal_eq hn (reuse w inc exc) false
  obtain ⟨x, hxm⟩ := List.exists_mem_of_ne_nil exc hne
  have hxo : x ∈ order n (reuse w inc exc) false := mem_order.2 (hx x hxm)
  rcases ho : order n (reuse w inc exc) false with _ | ⟨f, rest⟩
  · rw [ho] at hxo; simp at hxo
  have hxtop : reuse w inc exc x = ⊤ := by
    unfold reuse
    rw [if_pos (List.mem_map_of_mem hxm)]
  have hftop : reuse w inc exc f = ⊤ := by
    have hs := order_sorted (reuse w inc exc) false
    rw [ho] at hs hxo
    rcases List.mem_cons.1 hxo with rfl | hxr
    · exact hxtop
    · have := (List.pairwise_cons.1 hs).1 x hxr
      simp only [Bool.false_eq_true, if_false] at this
      rw [hxtop] at this
      exact EReal.neg_eq_bot_iff.1 (le_bot_iff.1 (by simpa using this))
  have hfl : f.1 < f.2 := mem_order.1 (by rw [ho]; simp)
  have hfx : f ∈ exc := by
    unfold reuse at hftop
    rw [map_canon hx, canon_of_lt hfl] at hftop
    by_contra hcon
    rw [if_neg hcon] at hftop
    split at hftop
    · simp at hftop
    · simp at hftop
  have hfk : f ∈ (kr (reuse w inc exc) false).toFinset := by
    have hnc : ¬ Conn (([] : List (Edge n)).toFinset) f.1 f.2 := by
      rw [List.toFinset_nil, conn_empty]
      exact hfl.ne
    have hF : Forest ([f] : List (Edge n)).toFinset := by
      have := (Forest.empty (n := n)).insert (by simpa using hnc)
      simpa using this
    obtain ⟨_, _, ⟨g, hg, _⟩, _⟩ := greedy_spec rest [f] hF (by simp)
    unfold kr
    rw [ho]
    unfold greedy
    rw [if_neg hnc, List.nil_append, hg]
    simp
  unfold mstWith
  rw [hk]
  simp only
  split
  · rfl
  · rw [if_pos]
    refine ⟨f, ?_⟩
    rw [Finset.mem_inter, map_canon hx]
    exact ⟨hfk, List.mem_toFinset.2 hfx⟩

theorem branch'_false_nil (hn : 0 < n) (w : Edge n → ℝ) (es : List (Edge n)) : ∀ (I X : List (Edge n)),
    (∀ e ∈ es, e.1 < e.2) → (∀ e ∈ X, e.1 < e.2) → branch' w false es I X = [] := by
  induction es with
  | nil => intros; rfl
  | cons e es ih =>
    intro I X hes hX
    have hes' : ∀ x ∈ es, x.1 < x.2 := fun x hx => hes x (by simp [hx])
    have hX' : ∀ x ∈ X ++ [e], x.1 < x.2 := by
      intro x hx
      rcases List.mem_append.1 hx with hx | hx
      · exact hX x hx
      · rw [List.mem_singleton.1 hx]; exact hes e (by simp)
    unfold branch'
    rw [ih I X hes' hX, ih (I ++ [e]) X hes' hX, reuse_false_none hn w hX' (by simp)]
    split <;> rfl

/-- C27 fails for `minimize=False`: the constraints keep their signs, so the excluded edge becomes the most attractive one,
every branch is discarded, and only one tree is ever returned, whatever `num_trees` is. -/
theorem C27_maximize_broken (hn : 0 < n) (w : Edge n → ℝ) {k : ℕ} (hk : 1 ≤ k) (pick : List (Entry n) → ℕ)
    (hp : ∀ h, h ≠ [] → pick h < h.length) :
    ∃ t, topk w k false pick = .ok [t] := by
  obtain ⟨h1, h2, h3⟩ := kr_tree hn (reuse w [] []) false
  have hm : ∃ c, mstWith w [] [] false = .ok (some (kr (reuse w [] []) false, c)) := by
    unfold mstWith
    rw [kruskal_eq hn]
    simp
  obtain ⟨c, hm⟩ := hm
  refine ⟨kr (reuse w [] []) false, ?_⟩
  unfold topk
  rw [if_neg (by omega), hm]
  simp only
  obtain ⟨k, rfl⟩ : ∃ j, k = j + 1 := ⟨k - 1, by omega⟩
  have hp0 := hp [⟨c, kr (reuse w [] []) false, [], []⟩] (by simp)
  have hp1 : pick [⟨c, kr (reuse w [] []) false, [], []⟩] = 0 := by simpa using hp0
  unfold topkLoop
  rw [hp1]
  simp only [List.getElem?_cons_zero, List.eraseIdx_zero, List.tail_cons, List.nil_append, List.map_nil]
  rw [map_canon h3, branch_false _ _ _ _ _ h2, branch'_false_nil hn w _ _ _ h3 (by simp)]
  rcases k with _ | k
  · rfl
  · unfold topkLoop
    simp

/-- ... although the triangle has three spanning trees. -/
theorem C27_triangle : IsSpanningTree (n := 3) {(0, 1), (0, 2)} ∧ IsSpanningTree (n := 3) {(0, 1), (1, 2)} := by
  refine ⟨C26_star_tree, by decide, by decide, ?_⟩
  have h1 : Conn (n := 3) {(0, 1), (1, 2)} 1 0 := (Conn.edge (e := ((0 : Fin 3), (1 : Fin 3))) (by decide)).symm
  have h2 : Conn (n := 3) {(0, 1), (1, 2)} 1 2 := Conn.edge (e := ((1 : Fin 3), (2 : Fin 3))) (by decide)
  have h : ∀ a : Fin 3, Conn (n := 3) {(0, 1), (1, 2)} 1 a := by
    intro a
    fin_cases a
    · exact h1
    · exact Conn.refl _ _
    · exact h2
  exact fun a b => (h a).symm.trans (h b)

end Verif.Mst

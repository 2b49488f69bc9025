import Verif.MstTopk

/-!
# `_prim_maximum_spanning_tree` (cltree.py:81-126) returns a maximum spanning tree: property C26
-/

namespace Verif.Mst

open Verif.Span

variable {n : ℕ}

/-- The edges `(parent, child)` of a parent vector, smaller index first. -/
noncomputable def treeEdges (p : Fin n → Option (Fin n)) : Finset (Edge n) :=
  (Finset.univ : Finset (Fin n)).biUnion fun v => ((p v).map fun u => canon (u, v)).toFinset

theorem mem_treeEdges {p : Fin n → Option (Fin n)} {e : Edge n} :
    e ∈ treeEdges p ↔ ∃ v u, p v = some u ∧ e = canon (u, v) := by
  unfold treeEdges
  simp only [Finset.mem_biUnion, Finset.mem_univ, true_and, Option.mem_toFinset, Option.mem_def, Option.map_eq_some_iff]
  constructor
  · rintro ⟨v, u, h, rfl⟩; exact ⟨v, u, h, rfl⟩
  · rintro ⟨v, u, h, rfl⟩; exact ⟨v, u, h, rfl⟩

/-- Following parents leads from `v` to `r`. -/
def LeadsTo (p : Fin n → Option (Fin n)) : Fin n → Fin n → Prop := Relation.ReflTransGen fun a b => p a = some b

theorem canon_lt {u v : Fin n} (h : u ≠ v) : (canon (u, v)).1 < (canon (u, v)).2 := by
  unfold canon
  split
  · rename_i h'; exact lt_of_le_of_ne h' h
  · rename_i h'; exact not_le.1 h'

theorem canon_conn {S : Finset (Edge n)} {u v : Fin n} (h : canon (u, v) ∈ S) : Conn S u v := by
  have := Conn.edge h
  unfold canon at this
  split at this
  · exact this
  · exact this.symm

theorem canon_w {w : Fin n → Fin n → ℝ} (hs : ∀ i j, w i j = w j i) (u v : Fin n) :
    w (canon (u, v)).1 (canon (u, v)).2 = w u v := by
  unfold canon
  split
  · rfl
  · exact hs v u

theorem argmaxFin_spec (hn : 0 < n) (c : Fin n → LogV) : ∃ v, argmaxFin c = some v ∧ ∀ u, c u ≤ c v := by
  obtain ⟨m, _, hm⟩ := Finset.exists_max_image Finset.univ c ⟨⟨0, hn⟩, Finset.mem_univ _⟩
  unfold argmaxFin
  rcases h : (List.finRange n).find? (fun v => (List.finRange n).all fun u => decide (c u ≤ c v)) with _ | v
  · rw [List.find?_eq_none] at h
    exact absurd (by simpa using fun u => hm u (Finset.mem_univ u)) (h m (List.mem_finRange m))
  · refine ⟨v, rfl, fun u => ?_⟩
    have := List.find?_some h
    simp only [List.all_eq_true, decide_eq_true_eq] at this
    exact this u (List.mem_finRange u)

/-- Loop invariant. -/
structure PInv (w : Fin n → Fin n → ℝ) (root : Fin n) (s : Prim n) : Prop where
  rootIn : s.inTree root = true
  best : ∀ u, s.inTree u = false → ∃ q, s.inTree q = true ∧ s.bestP u = some q ∧ s.bestW u = (w q u : LogV) ∧
    ∀ q', s.inTree q' = true → w q' u ≤ w q u
  par : ∀ v, s.inTree v = true → v ≠ root → ∃ q, s.inTree q = true ∧ s.parents v = some q ∧ q ≠ v
  out : ∀ v, s.inTree v = false → s.parents v = none
  proot : s.parents root = none
  leads : ∀ v, s.inTree v = true → LeadsTo s.parents v root
  opt : ∃ M, IsSpanningTree M ∧ treeEdges s.parents ⊆ M ∧
    ∀ T, IsSpanningTree T → ∑ e ∈ T, w e.1 e.2 ≤ ∑ e ∈ M, w e.1 e.2

theorem inv0 (w : Fin n → Fin n → ℝ) (root : Fin n) : PInv w root (prim0 w root) where
  rootIn := by simp [prim0]
  best := by
    intro u hu
    have hne : u ≠ root := by
      rintro rfl
      simp [prim0] at hu
    refine ⟨root, by simp [prim0], ?_, ?_, ?_⟩
    · simp [prim0, Function.update_of_ne hne]
    · simp [prim0, Function.update_of_ne hne]
    · intro q' hq'
      have : q' = root := by
        by_contra hcon
        simp [prim0, Function.update_of_ne hcon] at hq'
      rw [this]
  par := by
    intro v hv hne
    simp [prim0, Function.update_of_ne hne] at hv
  out := fun _ _ => rfl
  proot := rfl
  leads := by
    intro v hv
    have : v = root := by
      by_contra hcon
      simp [prim0, Function.update_of_ne hcon] at hv
    rw [this]
    exact Relation.ReflTransGen.refl
  opt := by
    obtain ⟨l, _, _, h3, h4⟩ := C26_kruskal_max (n := n) (by have := root.2; omega) fun e => w e.1 e.2
    refine ⟨l.toFinset, h3, ?_, h4⟩
    intro e he
    obtain ⟨v, u, h, _⟩ := mem_treeEdges.1 he
    simp [prim0] at h

theorem step_inv {w : Fin n → Fin n → ℝ} (hs : ∀ i j, w i j = w j i) {root : Fin n} {s : Prim n} (h : PInv w root s)
    (hout : ∃ u, s.inTree u = false) :
    ∃ s', primStep w s = .ok s' ∧ PInv w root s' ∧
      ∃ v, s.inTree v = false ∧ s'.inTree = Function.update s.inTree v true := by
  classical
  have hn : 0 < n := by have := root.2; omega
  obtain ⟨v, hv, hmax⟩ := argmaxFin_spec hn (fun u => if s.inTree u then ⊥ else s.bestW u)
  obtain ⟨u0, hu0⟩ := hout
  have hcv : (if s.inTree v then (⊥ : LogV) else s.bestW v) ≠ ⊥ := by
    intro hb
    obtain ⟨q, _, _, hq, _⟩ := h.best u0 hu0
    have := hmax u0
    simp only [hb, hu0, Bool.false_eq_true, if_false, hq] at this
    exact absurd (le_bot_iff.1 this) WithBot.coe_ne_bot
  have hvout : s.inTree v = false := by
    by_contra hcon
    rw [Bool.not_eq_false] at hcon
    rw [if_pos hcon] at hcv
    exact hcv rfl
  obtain ⟨q, hqin, hqp, hqw, hqmax⟩ := h.best v hvout
  have hqv : q ≠ v := by
    rintro rfl
    rw [hqin] at hvout; simp at hvout
  have hvr : v ≠ root := by
    rintro rfl
    rw [h.rootIn] at hvout; simp at hvout
  have hmem : ∀ x, Function.update s.inTree v true x = true ↔ s.inTree x = true ∨ x = v := by
    intro x
    by_cases hx : x = v
    · subst hx; simp
    · simp [hx]
  refine ⟨_, by unfold primStep; simp only [hv]; rw [if_neg hcv], ?_, v, hvout, rfl⟩
  have hleads : ∀ x, s.inTree x = true → LeadsTo (Function.update s.parents v (s.bestP v)) x root := by
    intro x hx
    have := h.leads x hx
    unfold LeadsTo at this ⊢
    induction this using Relation.ReflTransGen.head_induction_on with
    | refl => exact Relation.ReflTransGen.refl
    | head h1 h2 ih =>
      rename_i a c
      have hav : a ≠ v := by
        rintro rfl
        rw [hx] at hvout; simp at hvout
      have har : a ≠ root := by
        rintro rfl
        rw [h.proot] at h1; simp at h1
      obtain ⟨q', hq', hp', _⟩ := h.par a hx har
      have hc : s.inTree c = true := by
        have h1' : s.parents a = some c := h1
        rw [h1'] at hp'
        rw [Option.some.inj hp']; exact hq'
      exact Relation.ReflTransGen.head (by rw [Function.update_of_ne hav]; exact h1) (ih hc)
  refine ⟨?_, ?_, ?_, ?_, ?_, ?_, ?_⟩
  · show Function.update s.inTree v true root = true
    exact (hmem root).2 (Or.inl h.rootIn)
  · intro u hu
    have hu' : Function.update s.inTree v true u = false := hu
    have huv : u ≠ v := by
      rintro rfl
      simp at hu'
    have huo : s.inTree u = false := by rwa [Function.update_of_ne huv] at hu'
    obtain ⟨q', a1, a2, a3, a4⟩ := h.best u huo
    by_cases himp : s.bestW u < (w v u : LogV)
    · refine ⟨v, (hmem v).2 (Or.inr rfl), ?_, ?_, ?_⟩
      · simp [hu', himp]
      · simp [hu', himp]
      · intro x hx
        rcases (hmem x).1 hx with hx | rfl
        · rw [a3, WithBot.coe_lt_coe] at himp
          exact (a4 x hx).trans himp.le
        · exact le_rfl
    · refine ⟨q', (hmem q').2 (Or.inl a1), ?_, ?_, ?_⟩
      · simp [himp, a2]
      · rw [a3] at himp
        simp only [a3, himp, decide_false, Bool.and_false, Bool.false_eq_true, if_false]
      · intro x hx
        rcases (hmem x).1 hx with hx | rfl
        · exact a4 x hx
        · rw [a3, WithBot.coe_lt_coe] at himp
          exact not_lt.1 himp
  · intro x hx hxr
    rcases (hmem x).1 hx with hx' | rfl
    · have hxv : x ≠ v := by
        rintro rfl
        rw [hx'] at hvout; simp at hvout
      obtain ⟨q', b1, b2, b3⟩ := h.par x hx' hxr
      exact ⟨q', (hmem q').2 (Or.inl b1), by
        show Function.update s.parents v (s.bestP v) x = _
        rw [Function.update_of_ne hxv]; exact b2, b3⟩
    · exact ⟨q, (hmem q).2 (Or.inl hqin), by
        show Function.update s.parents x (s.bestP x) x = _
        rw [Function.update_self]; exact hqp, hqv⟩
  · intro x hx
    have hx' : Function.update s.inTree v true x = false := hx
    have hxv : x ≠ v := by
      rintro rfl
      simp at hx'
    show Function.update s.parents v (s.bestP v) x = none
    rw [Function.update_of_ne hxv] at hx' ⊢
    exact h.out x hx'
  · show Function.update s.parents v (s.bestP v) root = none
    rw [Function.update_of_ne hvr.symm]; exact h.proot
  · intro x hx
    rcases (hmem x).1 hx with hx | rfl
    · exact hleads x hx
    · exact Relation.ReflTransGen.head (by
        show Function.update s.parents x (s.bestP x) x = some q
        rw [Function.update_self]; exact hqp) (hleads q hqin)
  · obtain ⟨M, hM, hsub, hopt⟩ := h.opt
    have hedges : ∀ e, e ∈ treeEdges (Function.update s.parents v (s.bestP v)) →
        e = canon (q, v) ∨ (e ∈ treeEdges s.parents ∧ s.inTree e.1 = true ∧ s.inTree e.2 = true) := by
      intro e he
      obtain ⟨x, u, hx, rfl⟩ := mem_treeEdges.1 he
      by_cases hxv : x = v
      · subst hxv
        rw [Function.update_self, hqp] at hx
        left; rw [Option.some.inj hx]
      · rw [Function.update_of_ne hxv] at hx
        right
        have hxin : s.inTree x = true := by
          by_contra hcon
          rw [Bool.not_eq_true] at hcon
          rw [h.out x hcon] at hx; simp at hx
        have hxr : x ≠ root := by
          rintro rfl
          rw [h.proot] at hx; simp at hx
        obtain ⟨q', b1, b2, _⟩ := h.par x hxin hxr
        rw [hx] at b2
        rw [← Option.some.inj b2] at b1
        refine ⟨mem_treeEdges.2 ⟨x, u, hx, rfl⟩, ?_⟩
        unfold canon
        split
        · exact ⟨b1, hxin⟩
        · exact ⟨hxin, b1⟩
    by_cases heM : canon (q, v) ∈ M
    · refine ⟨M, hM, ?_, hopt⟩
      intro e he
      rcases hedges e he with rfl | ⟨h1, _⟩
      · exact heM
      · exact hsub h1
    · have hcross : ¬ ((s.inTree (canon (q, v)).1 = true) ↔ (s.inTree (canon (q, v)).2 = true)) := by
        unfold canon
        split <;> simp [hqin, hvout]
      obtain ⟨f, hf, hfc, hM'⟩ := exchange hM (canon_lt hqv) heM (fun x => s.inTree x = true) hcross
      refine ⟨_, hM', ?_, ?_⟩
      · intro e he
        rcases hedges e he with rfl | ⟨h1, h2, h3⟩
        · exact Finset.mem_insert_self _ _
        · refine Finset.mem_insert_of_mem (Finset.mem_erase.2 ⟨?_, hsub h1⟩)
          rintro rfl
          exact hfc (by simp [h2, h3])
      · have hwf : w f.1 f.2 ≤ w (canon (q, v)).1 (canon (q, v)).2 := by
          rw [canon_w hs]
          have key : ∀ a b, s.inTree a = true → s.inTree b = false → w a b ≤ w q v := by
            intro a b ha hb
            obtain ⟨q', _, _, c3, c4⟩ := h.best b hb
            have h1 := hmax b
            simp only [hb, hvout, Bool.false_eq_true, if_false, c3, hqw, WithBot.coe_le_coe] at h1
            exact (c4 a ha).trans h1
          rcases ha : s.inTree f.1 with _ | _ <;> rcases hb : s.inTree f.2 with _ | _
          · simp [ha, hb] at hfc
          · rw [hs]; exact key _ _ hb ha
          · exact key _ _ ha hb
          · simp [ha, hb] at hfc
        intro T hT
        refine (hopt T hT).trans ?_
        rw [Finset.sum_insert (fun hm => heM (Finset.mem_of_mem_erase hm)), ← Finset.add_sum_erase M _ hf]
        linarith

theorem loop_inv {w : Fin n → Fin n → ℝ} (hs : ∀ i j, w i j = w j i) {root : Fin n} (k : ℕ) : ∀ s : Prim n,
    PInv w root s → (Finset.univ.filter fun u => s.inTree u = false).card = k →
    ∃ s', primLoop w k s = .ok s' ∧ PInv w root s' ∧ ∀ u, s'.inTree u = true := by
  induction k with
  | zero =>
    intro s h hc
    refine ⟨s, rfl, h, fun u => ?_⟩
    rw [Finset.card_eq_zero, Finset.filter_eq_empty_iff] at hc
    simpa using hc (Finset.mem_univ u)
  | succ k ih =>
    intro s h hc
    have hne : ∃ u, s.inTree u = false := by
      have : (Finset.univ.filter fun u => s.inTree u = false).Nonempty := Finset.card_pos.1 (by omega)
      obtain ⟨u, hu⟩ := this
      exact ⟨u, (Finset.mem_filter.1 hu).2⟩
    obtain ⟨s', h1, h2, v, hv, hv'⟩ := step_inv hs h hne
    have hc' : (Finset.univ.filter fun u => s'.inTree u = false).card = k := by
      have e : (Finset.univ.filter fun u => s'.inTree u = false) =
          (Finset.univ.filter fun u => s.inTree u = false).erase v := by
        ext u
        rw [Finset.mem_erase, Finset.mem_filter, Finset.mem_filter, hv']
        by_cases hu : u = v
        · subst hu; simp
        · simp [hu]
      rw [e, Finset.card_erase_of_mem (by simp [hv]), hc]
      omega
    obtain ⟨s'', g1, g2, g3⟩ := ih s' h2 hc'
    refine ⟨s'', ?_, g2, g3⟩
    unfold primLoop
    rw [h1]
    exact g1

/-- C26: for every symmetric matrix of finite weights and every root, `_prim_maximum_spanning_tree` does not raise and
returns a parent vector in which only the root has no parent, every node leads to the root, the edges are those of a
spanning tree, and no spanning tree has a larger total weight. -/
theorem C26_prim {w : Fin n → Fin n → ℝ} (hs : ∀ i j, w i j = w j i) (root : Fin n) :
    ∃ p, prim w root = .ok p ∧ p root = none ∧ (∀ v, v ≠ root → ∃ u, p v = some u ∧ u ≠ v) ∧
      (∀ v, LeadsTo p v root) ∧ IsSpanningTree (treeEdges p) ∧
      ∀ T, IsSpanningTree T → ∑ e ∈ T, w e.1 e.2 ≤ ∑ e ∈ treeEdges p, w e.1 e.2 := by
  have hn : 0 < n := by have := root.2; omega
  have hcard : (Finset.univ.filter fun u => (prim0 w root).inTree u = false).card = n - 1 := by
    have e : (Finset.univ.filter fun u => (prim0 w root).inTree u = false) = Finset.univ.erase root := by
      ext u
      by_cases hu : u = root
      · rw [Finset.mem_filter, Finset.mem_erase]; subst hu; simp [prim0]
      · rw [Finset.mem_filter, Finset.mem_erase]; simp [prim0, hu]
    rw [e, Finset.card_erase_of_mem (Finset.mem_univ _), Finset.card_univ, Fintype.card_fin]
  obtain ⟨s, h1, h2, h3⟩ := loop_inv hs (n - 1) (prim0 w root) (inv0 w root) hcard
  have hp : Function.update s.parents root none = s.parents := by
    rw [← h2.proot, Function.update_eq_self]
  refine ⟨s.parents, ?_, h2.proot, ?_, fun v => h2.leads v (h3 v), ?_⟩
  · unfold prim
    rw [h1]
    simp only
    rw [hp]
  · intro v hv
    obtain ⟨q, _, h, h'⟩ := h2.par v (h3 v) hv
    exact ⟨q, h, h'⟩
  · obtain ⟨M, hM, hsub, hopt⟩ := h2.opt
    have hconn : ∀ v, Conn (treeEdges s.parents) v root := by
      intro v
      have := h2.leads v (h3 v)
      unfold LeadsTo at this
      induction this using Relation.ReflTransGen.head_induction_on with
      | refl => exact Conn.refl _ _
      | head h _ ih =>
        refine Conn.trans (canon_conn (mem_treeEdges.2 ⟨_, _, h, rfl⟩)).symm ih
    have ht : IsSpanningTree (treeEdges s.parents) := by
      refine spanning_of_forest (fun e he => hM.1 e (hsub he)) (hM.forest.subset hsub) ?_ hn
      exact fun a b => (hconn a).trans (hconn b).symm
    refine ⟨ht, ?_⟩
    rw [spanning_eq_of_subset ht hM hsub]
    exact hopt

/-- The hypotheses hold for a concrete matrix with ties. -/
theorem C26_prim_witness : ∃ p, prim (n := 3) (fun i j => if i = j then 0 else 1) 0 = .ok p :=
  (C26_prim (n := 3) (w := fun i j => if i = j then 0 else 1) (by intro i j; simp [eq_comm]) 0).imp fun _ h => h.1

end Verif.Mst

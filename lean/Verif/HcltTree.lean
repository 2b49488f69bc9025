import Verif.SpanTree
import Verif.CLTreeProps

/-!
Rooted trees: the rooted version of a spanning tree, and the exact elimination of hidden variables along it.
Nothing here models code; used by C70.
-/

namespace Verif.Hclt

open Finset Verif.Span

variable {n : ℕ}

/-- `par` and `d` are the parents and depths of the tree `T` hung up at `r`. -/
structure Rooted (T : Finset (Edge n)) (r : Fin n) (par : Fin n → Option (Fin n)) (d : Fin n → ℕ) : Prop where
  root : par r = none
  zero : d r = 0
  parent : ∀ v, v ≠ r → ∃ p, par v = some p
  depth : ∀ v p, par v = some p → d v = d p + 1
  adj : ∀ u v, Adj T u v ↔ par u = some v ∨ par v = some u
  lt : ∀ v, d v < n

/-- Joined to `r` by a walk of length `k`. -/
def reach (T : Finset (Edge n)) (r : Fin n) : ℕ → Fin n → Prop
  | 0, v => v = r
  | k + 1, v => ∃ u, reach T r k u ∧ Adj T u v

theorem reach_of_conn {T : Finset (Edge n)} {r v : Fin n} (h : Conn T r v) : ∃ k, reach T r k v := by
  induction h with
  | refl => exact ⟨0, rfl⟩
  | tail _ h2 ih =>
    obtain ⟨k, hk⟩ := ih
    exact ⟨k + 1, _, hk, h2⟩

/-- Every spanning tree can be hung up at every node. -/
theorem rooted {T : Finset (Edge n)} (hT : IsSpanningTree T) (r : Fin n) : ∃ par d, Rooted T r par d := by
  classical
  obtain ⟨hlt, hcard, hconn⟩ := hT
  have hr : ∀ v, ∃ k, reach T r k v := fun v => reach_of_conn (hconn r v)
  set d : Fin n → ℕ := fun v => Nat.find (hr v) with hd
  have hd1 : ∀ v, reach T r (d v) v := fun v => Nat.find_spec (hr v)
  have hd2 : ∀ v k, reach T r k v → d v ≤ k := fun v k h => Nat.find_min' (hr v) h
  have hdr : d r = 0 := Nat.le_zero.1 (hd2 r 0 rfl)
  have hd0 : ∀ v, v ≠ r → ∃ p, Adj T p v ∧ d v = d p + 1 := by
    intro v hv
    have h1 := hd1 v
    cases hk : d v with
    | zero => rw [hk] at h1; exact absurd h1 hv
    | succ k =>
      rw [hk] at h1
      obtain ⟨u, hu, ha⟩ := h1
      refine ⟨u, ha, ?_⟩
      have h2 := hd2 u k hu
      have h3 := hd2 v (d u + 1) ⟨u, hd1 u, ha⟩
      omega
  set par : Fin n → Option (Fin n) := fun v => if h : v = r then none else some (hd0 v h).choose with hpar
  have hpr : par r = none := by simp [hpar]
  have hps : ∀ v, v ≠ r → ∃ p, par v = some p := fun v hv => ⟨_, by simp only [hpar, dif_neg hv]; rfl⟩
  have hp : ∀ v p, par v = some p → Adj T p v ∧ d v = d p + 1 := by
    intro v p h
    have hv : v ≠ r := by rintro rfl; rw [hpr] at h; cases h
    simp only [hpar, dif_neg hv, Option.some.injEq] at h
    rw [← h]
    exact (hd0 v hv).choose_spec
  -- the edges to the parents
  set g : Fin n → Edge n := fun v => match par v with
    | none => (v, v)
    | some p => if (p, v) ∈ T then (p, v) else (v, p) with hg
  have hg1 : ∀ v p, par v = some p → g v ∈ T ∧ (g v = (p, v) ∨ g v = (v, p)) := by
    intro v p h
    simp only [hg, h]
    split_ifs with h1
    · exact ⟨h1, .inl rfl⟩
    · exact ⟨(hp v p h).1.resolve_left h1, .inr rfl⟩
  have himg : (univ.erase r).image g = T := by
    refine eq_of_subset_of_card_le ?_ ?_
    · intro e he
      obtain ⟨v, hv, rfl⟩ := mem_image.1 he
      obtain ⟨p, hpv⟩ := hps v (mem_erase.1 hv).1
      exact (hg1 v p hpv).1
    · rw [card_image_of_injOn, card_erase_of_mem (mem_univ r), card_univ, Fintype.card_fin]
      · omega
      · intro u hu v hv huv
        obtain ⟨p, hpu⟩ := hps u (mem_erase.1 hu).1
        obtain ⟨q, hqv⟩ := hps v (mem_erase.1 hv).1
        have d1 := (hp u p hpu).2
        have d2 := (hp v q hqv).2
        rcases (hg1 u p hpu).2 with e1 | e1 <;> rcases (hg1 v q hqv).2 with e2 | e2 <;>
          rw [e1, e2, Prod.mk.injEq] at huv <;> obtain ⟨h1, h2⟩ := huv
        · exact h2
        · subst h1; subst h2; omega
        · subst h1; subst h2; omega
        · exact h1
  refine ⟨par, d, hpr, hdr, hps, fun v p h => (hp v p h).2, fun u v => ⟨fun h => ?_, ?_⟩, fun v => ?_⟩
  · have key : ∀ e ∈ T, par e.1 = some e.2 ∨ par e.2 = some e.1 := by
      intro e he
      rw [← himg] at he
      obtain ⟨v, hv, rfl⟩ := mem_image.1 he
      obtain ⟨p, hpv⟩ := hps v (mem_erase.1 hv).1
      rcases (hg1 v p hpv).2 with e1 | e1 <;> rw [e1]
      · exact .inr hpv
      · exact .inl hpv
    rcases h with h | h
    · exact key _ h
    · exact (key _ h).symm
  · rintro (h | h)
    · exact (hp u v h).1.symm
    · exact (hp v u h).1
  · -- the depths below `d v` all occur
    have hall : ∀ k, ∀ v, d v = k → ∀ j ≤ k, ∃ u, d u = j := by
      intro k
      induction k with
      | zero => intro v hv j hj; exact ⟨v, by omega⟩
      | succ k ih =>
        intro v hv j hj
        rcases Nat.lt_or_ge k j with h | h
        · exact ⟨v, by omega⟩
        · have hvr : v ≠ r := by rintro rfl; omega
          obtain ⟨p, hpv⟩ := hps v hvr
          exact ih p (by have := (hp v p hpv).2; omega) j h
    have hsub : range (d v + 1) ⊆ univ.image d := by
      intro j hj
      obtain ⟨u, hu⟩ := hall (d v) v rfl j (by have := mem_range.1 hj; omega)
      exact mem_image.2 ⟨u, mem_univ u, hu⟩
    have := (card_le_card hsub).trans card_image_le
    rw [card_range, card_univ, Fintype.card_fin] at this
    omega

/-- The parents are determined by the tree. -/
theorem Rooted.unique {T : Finset (Edge n)} {r : Fin n} {par par' : Fin n → Option (Fin n)} {d d' : Fin n → ℕ}
    (h : Rooted T r par d) (h' : Rooted T r par' d') : par = par' := by
  have key : ∀ k v, d v = k → par v = par' v := by
    intro k
    induction k with
    | zero =>
      intro v hv
      by_cases hvr : v = r
      · rw [hvr, h.root, h'.root]
      · obtain ⟨p, hp⟩ := h.parent v hvr
        have := h.depth v p hp
        omega
    | succ k ih =>
      intro v hv
      by_cases hvr : v = r
      · rw [hvr, h.root, h'.root]
      · obtain ⟨p, hp⟩ := h.parent v hvr
        have hdp := h.depth v p hp
        rcases (h'.adj v p).1 ((h.adj v p).2 (.inl hp)) with h1 | h1
        · rw [hp, h1]
        · have := ih p (by omega)
          rw [h1] at this
          have := h.depth p v this
          omega
  funext v
  exact key _ v rfl

/-! ### Elimination -/

variable {T : Finset (Edge n)} {r : Fin n} {par : Fin n → Option (Fin n)} {d : Fin n → ℕ}

theorem pf_of_sorted {L : List (Fin n)} (hd : ∀ v p, par v = some p → d v = d p + 1)
    (hs : L.Pairwise fun a b => d b ≤ d a) (hc : ∀ v ∈ L, ∀ p, par v = some p → p ∈ L) : CLTree.PF par L := by
  induction L with
  | nil => trivial
  | cons i l ih =>
    rw [List.pairwise_cons] at hs
    refine ⟨fun p hp => ?_, ih hs.2 fun v hv p hp => ?_⟩
    · rcases List.mem_cons.1 (hc i (by simp) p hp) with h | h
      · have := hd i p hp; rw [h] at this; omega
      · exact h
    · rcases List.mem_cons.1 (hc v (by simp [hv]) p hp) with h | h
      · have h1 := hs.1 v hv
        have h2 := hd v p hp
        rw [h] at h2; omega
      · exact h

/-- An order of all nodes, children before parents. -/
theorem Rooted.order (h : Rooted T r par d) : ∃ L, CLTree.Chain par r L ∧ ∀ v, v ∈ L := by
  classical
  set L := (List.finRange n).insertionSort (fun a b => d b ≤ d a) with hL
  have hmem : ∀ v, v ∈ L := fun v => by rw [hL, List.mem_insertionSort]; exact List.mem_finRange v
  have hs : L.Pairwise fun a b => d b ≤ d a := by
    haveI : Std.Total (fun a b : Fin n => d b ≤ d a) := ⟨fun a b => le_total _ _⟩
    haveI : IsTrans (Fin n) (fun a b : Fin n => d b ≤ d a) := ⟨fun a b c h1 h2 => le_trans h2 h1⟩
    exact List.pairwise_insertionSort _ _
  refine ⟨L, ⟨pf_of_sorted h.depth hs fun v _ p _ => hmem p, ?_, hmem r, h.root, ?_⟩, hmem⟩
  · exact (List.perm_insertionSort _ _).nodup_iff.2 (List.nodup_finRange n)
  · intro v _ hv
    by_contra hvr
    obtain ⟨p, hp⟩ := h.parent v hvr
    rw [hv] at hp; cases hp

/-- All assignments of a state below `H` to every node. -/
def states (n H : ℕ) : Finset (Fin n → ℕ) := Fintype.piFinset fun _ => range H

/-- State of the parent, 0 for the root. -/
def parState (par : Fin n → Option (Fin n)) (ζ : Fin n → ℕ) (v : Fin n) : ℕ := match par v with
  | none => 0
  | some p => ζ p

/-- **Elimination.** If `M` satisfies the upward recursion, then its value at the root is the sum over all hidden
states of the product of all local factors.  `A v z z'`: state `z` of `v` given state `z'` of its parent. -/
theorem eliminate (h : Rooted T r par d) (H : ℕ) (A : Fin n → ℕ → ℕ → ℝ) (e M : Fin n → ℕ → ℝ)
    (hM : ∀ v, ∀ z < H, M v z = e v z * ∏ u ∈ univ.filter (fun u => par u = some v), ∑ z' ∈ range H, A u z' z * M u z') :
    ∑ z ∈ range H, A r z 0 * M r z = ∑ ζ ∈ states n H, ∏ v, A v (ζ v) (parState par ζ v) * e v (ζ v) := by
  classical
  set obs : Fin n → Option ℕ := fun _ => none with hobs
  set cs : List (Fin n) → Fin n → ℕ → ℝ := fun L v z => e v z *
    ∏ u ∈ univ.filter (fun u => par u = some v ∧ u ∉ L), ∑ z' ∈ range H, A u z' z * M u z' with hcs
  set P : List (Fin n) → ℝ := fun L => ∑ ζ ∈ CLTree.Dom H obs L,
    ∏ v ∈ L.toFinset, A v (ζ v) (parState par ζ v) * cs L v (ζ v) with hP
  have hvals : ∀ i : Fin n, CLTree.vals H obs i = range H := fun i => rfl
  have key : ∀ L, CLTree.Chain par r L → P L = ∑ z ∈ range H, A r z 0 * M r z := by
    refine CLTree.chain_induct (pa := par) (r := r) ?_ ?_
    · intro hr
      simp only [hP]
      rw [CLTree.sum_dom_cons (by simp), CLTree.dom_nil, sum_singleton, hvals]
      refine sum_congr rfl fun z hz => ?_
      have hself : ∀ u, par u = some r → u ∉ ([r] : List (Fin n)) := by
        intro u hu hm
        rw [List.mem_singleton] at hm
        subst hm
        have := h.depth _ _ hu
        omega
      simp only [List.toFinset_cons, List.toFinset_nil, insert_empty_eq, prod_singleton, Function.update_self]
      have e1 : parState par (Function.update (fun _ => 0) r z) r = 0 := by unfold parState; rw [hr]
      rw [e1, hM r z (mem_range.1 hz)]
      simp only [hcs]
      congr 2
      refine prod_congr ?_ fun _ _ => rfl
      ext u
      simp only [mem_filter, mem_univ, true_and]
      exact ⟨fun hh => hh.1, fun hh => ⟨hh, hself u hh⟩⟩
    · intro i l p hpi hpl hil hir hch ih
      rw [← ih]
      simp only [hP]
      rw [CLTree.sum_dom_cons hil, hvals]
      refine sum_congr rfl fun ζ hζ => ?_
      have hparl : ∀ v ∈ l, ∀ q, par v = some q → q ∈ l := by
        have : ∀ l : List (Fin n), CLTree.PF par l → ∀ v ∈ l, ∀ q, par v = some q → q ∈ l := by
          intro l
          induction l with
          | nil => simp
          | cons a l ih =>
            intro hpf v hv q hq
            rcases List.mem_cons.1 hv with rfl | hv
            · exact List.mem_cons_of_mem _ (hpf.1 q hq)
            · exact List.mem_cons_of_mem _ (ih hpf.2 v hv q hq)
        exact this l hch.pf
      have hζlt : ∀ v ∈ l, ζ v < H := by
        intro v hv
        have := Fintype.mem_piFinset.1 hζ v
        rw [if_pos hv, hvals] at this
        exact mem_range.1 this
      have hpi' : p ≠ i := by rintro rfl; exact hil hpl
      have hne : ∀ v ∈ l, v ≠ i := by rintro v hv rfl; exact hil hv
      -- the factor of the eliminated node is its message
      have h1 : ∀ z < H, cs (i :: l) i z = M i z := by
        intro z hz
        rw [hM i z hz]
        simp only [hcs]
        congr 1
        refine prod_congr ?_ fun _ _ => rfl
        ext u
        simp only [mem_filter, mem_univ, true_and]
        refine ⟨fun hh => hh.1, fun hh => ⟨hh, ?_⟩⟩
        intro hm
        rcases List.mem_cons.1 hm with hm | hm
        · subst hm
          have := h.depth _ _ hh
          omega
        · exact hil (hparl u hm i hh)
      have h2 : ∀ v, v ≠ p → ∀ z, cs (i :: l) v z = cs l v z := by
        intro v hv z
        simp only [hcs]
        congr 1
        refine prod_congr ?_ fun _ _ => rfl
        ext u
        simp only [mem_filter, mem_univ, true_and, List.mem_cons, not_or]
        constructor
        · rintro ⟨a, -, b⟩; exact ⟨a, b⟩
        · rintro ⟨a, b⟩
          refine ⟨a, ?_, b⟩
          rintro rfl
          rw [hpi] at a
          exact hv (Option.some.inj a).symm
      have h3 : ∀ z, cs l p z = cs (i :: l) p z * ∑ z' ∈ range H, A i z' z * M i z' := by
        intro z
        simp only [hcs]
        have hset : univ.filter (fun u => par u = some p ∧ u ∉ l) =
            insert i (univ.filter (fun u => par u = some p ∧ u ∉ i :: l)) := by
          ext u
          simp only [mem_filter, mem_univ, true_and, List.mem_cons, not_or, mem_insert]
          constructor
          · rintro ⟨a, b⟩
            by_cases hui : u = i
            · exact .inl hui
            · exact .inr ⟨a, hui, b⟩
          · rintro (rfl | ⟨a, -, b⟩)
            · exact ⟨hpi, hil⟩
            · exact ⟨a, b⟩
        rw [hset, prod_insert (by simp)]
        ring
      have hpart : ∀ z, ∏ v ∈ l.toFinset, A v (Function.update ζ i z v) (parState par (Function.update ζ i z) v) *
          cs (i :: l) v (Function.update ζ i z v) = ∏ v ∈ l.toFinset, A v (ζ v) (parState par ζ v) * cs (i :: l) v (ζ v) := by
        intro z
        refine prod_congr rfl fun v hv => ?_
        have hv := List.mem_toFinset.1 hv
        have e1 : parState par (Function.update ζ i z) v = parState par ζ v := by
          unfold parState
          cases hq : par v with
          | none => rfl
          | some q => exact Function.update_of_ne (hne q (hparl v hv q hq)) _ _
        rw [e1, Function.update_of_ne (hne v hv)]
      have e4 : ∀ z ∈ range H, (∏ v ∈ (i :: l).toFinset, A v (Function.update ζ i z v)
          (parState par (Function.update ζ i z) v) * cs (i :: l) v (Function.update ζ i z v)) =
          (A i z (ζ p) * M i z) * ∏ v ∈ l.toFinset, A v (ζ v) (parState par ζ v) * cs (i :: l) v (ζ v) := by
        intro z hz
        rw [List.toFinset_cons, prod_insert (by simpa using hil), hpart, Function.update_self, h1 z (mem_range.1 hz)]
        congr 2
        unfold parState
        rw [hpi]
        simp only [Function.update_of_ne hpi']
      rw [sum_congr rfl e4, ← sum_mul]
      have hpm : p ∈ l.toFinset := List.mem_toFinset.2 hpl
      rw [← mul_prod_erase _ _ hpm, ← mul_prod_erase l.toFinset (fun v => A v (ζ v) (parState par ζ v) * cs l v (ζ v)) hpm, h3]
      rw [prod_congr rfl fun v hv => by rw [h2 v (mem_erase.1 hv).1]]
      ring
  obtain ⟨L, hch, hmem⟩ := h.order
  rw [← key L hch]
  simp only [hP]
  have hdom : CLTree.Dom H obs L = states n H := by
    unfold CLTree.Dom states
    congr 1
    funext i
    rw [if_pos (hmem i), hvals]
  rw [hdom]
  refine sum_congr rfl fun ζ _ => ?_
  have hL : L.toFinset = univ := by ext v; simp [hmem v]
  rw [hL]
  refine prod_congr rfl fun v _ => ?_
  simp only [hcs]
  have : univ.filter (fun u => par u = some v ∧ u ∉ L) = ∅ := by
    ext u; simp [hmem u]
  rw [this, prod_empty, mul_one]

end Verif.Hclt

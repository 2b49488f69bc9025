import Verif.Mst
import Mathlib.Algebra.BigOperators.Group.List.Lemmas
import Mathlib.Algebra.Order.BigOperators.Group.Finset
import Mathlib.Data.List.Perm.Basic
import Mathlib.Tactic.Linarith

/-! # Spanning tree algorithms: C26 (Kruskal, Prim) and C27 (top-k) -/

namespace Verif.Mst

open Verif.Span

variable {n : ℕ}

/-! ## Union-find -/

/-- `r` is the representative of `x`. -/
inductive Root (p : Fin n → Fin n) : Fin n → Fin n → Prop
  | base {r} : p r = r → Root p r r
  | step {x r} : p x ≠ x → Root p (p x) r → Root p x r

theorem Root.unique {p : Fin n → Fin n} {x r s : Fin n} (h1 : Root p x r) (h2 : Root p x s) : r = s := by
  induction h1 with
  | base h =>
    cases h2 with
    | base _ => rfl
    | step h' _ => exact absurd h h'
  | step h _ ih =>
    cases h2 with
    | base h' => exact absurd h' h
    | step _ h2 => exact ih h2

theorem Root.fixed {p : Fin n → Fin n} {x r : Fin n} (h : Root p x r) : p r = r := by
  induction h with
  | base h => exact h
  | step _ _ ih => exact ih

/-- Ranks increase along parent pointers. -/
def WF (u : UF n) : Prop := ∀ x, u.parent x ≠ x → u.rank x < u.rank (u.parent x)

/-- Number of nodes of higher rank. -/
def above (u : UF n) (x : Fin n) : ℕ := (Finset.univ.filter fun y => u.rank x < u.rank y).card

theorem above_lt_of_rank {u : UF n} {x y : Fin n} (h : u.rank x < u.rank y) : above u y < above u x := by
  refine Finset.card_lt_card ?_
  rw [Finset.ssubset_iff_of_subset]
  · exact ⟨y, by simpa using h, by simp⟩
  · intro z hz
    simp only [Finset.mem_filter, Finset.mem_univ, true_and] at hz ⊢
    omega

theorem above_lt (u : UF n) (x : Fin n) : above u x < n := by
  have : above u x < (Finset.univ : Finset (Fin n)).card :=
    Finset.card_lt_card (Finset.filter_ssubset.2 ⟨x, Finset.mem_univ _, by simp⟩)
  simpa using this

theorem exists_root {u : UF n} (h : WF u) (x : Fin n) : ∃ r, Root u.parent x r := by
  induction hm : above u x using Nat.strong_induction_on generalizing x with
  | _ m ih =>
    by_cases hx : u.parent x = x
    · exact ⟨x, .base hx⟩
    · obtain ⟨r, hr⟩ := ih _ (hm ▸ above_lt_of_rank (h x hx)) (u.parent x) rfl
      exact ⟨r, .step hx hr⟩

/-- Path halving keeps the representatives. -/
theorem halve {u : UF n} (h : WF u) {x : Fin n} (hx : u.parent x ≠ x) :
    WF { u with parent := Function.update u.parent x (u.parent (u.parent x)) } ∧
    ∀ y s, Root u.parent y s → Root (Function.update u.parent x (u.parent (u.parent x))) y s := by
  have hrk : u.rank x < u.rank (u.parent (u.parent x)) := by
    by_cases hp : u.parent (u.parent x) = u.parent x
    · rw [hp]; exact h x hx
    · exact (h x hx).trans (h _ hp)
  constructor
  · intro y hy
    by_cases hyx : y = x
    · subst hyx; simpa using hrk
    · simp only [Function.update_of_ne hyx] at hy ⊢
      exact h y hy
  · intro y s hs
    induction hs with
    | @base r hr =>
      have : r ≠ x := by rintro rfl; exact hx hr
      exact .base (by rw [Function.update_of_ne this]; exact hr)
    | @step y r hy _ ih =>
      by_cases hyx : y = x
      · subst hyx
        have hne : u.parent y ≠ y := hx
        have hself : Function.update u.parent y (u.parent (u.parent y)) y = u.parent (u.parent y) := by simp
        have hne2 : u.parent (u.parent y) ≠ y := by
          intro he; rw [he] at hrk; exact lt_irrefl _ hrk
        refine .step (by rw [hself]; exact hne2) ?_
        rw [hself]
        cases ih with
        | base hb =>
          rw [Function.update_of_ne hne] at hb
          rw [hb]
          refine .base ?_
          rw [Function.update_of_ne hne]; exact hb
        | step _ h2 => rwa [Function.update_of_ne hne] at h2
      · have he : Function.update u.parent x (u.parent (u.parent x)) y = u.parent y := Function.update_of_ne hyx _ _
        exact .step (by rw [he]; exact hy) (by rw [he]; exact ih)

theorem find_spec (k : ℕ) : ∀ (u : UF n) (x : Fin n), WF u → above u x < k →
    (u.find k x).1.rank = u.rank ∧ WF (u.find k x).1 ∧ Root u.parent x (u.find k x).2 ∧
    ∀ y s, Root u.parent y s → Root (u.find k x).1.parent y s := by
  induction k with
  | zero => intro u x _ h; omega
  | succ k ih =>
    intro u x h hk
    unfold UF.find
    split
    · rename_i hx
      exact ⟨rfl, h, .base hx, fun _ _ h => h⟩
    · rename_i hx
      obtain ⟨h1, h2⟩ := halve h hx
      set u' : UF n := { u with parent := Function.update u.parent x (u.parent (u.parent x)) } with hu'
      have hp : u'.parent x = u.parent (u.parent x) := by simp [hu']
      have hrk : u.rank x < u.rank (u.parent (u.parent x)) := by
        by_cases hp : u.parent (u.parent x) = u.parent x
        · rw [hp]; exact h x hx
        · exact (h x hx).trans (h _ hp)
      have hab : above u' (u'.parent x) < k := by
        rw [hp]
        have : above u (u.parent (u.parent x)) < above u x := above_lt_of_rank hrk
        exact lt_of_lt_of_le this (by omega)
      obtain ⟨e1, e2, e3, e4⟩ := ih u' (u'.parent x) h1 hab
      refine ⟨e1, e2, ?_, fun y s hs => e4 y s (h2 y s hs)⟩
      obtain ⟨r, hr⟩ := exists_root h x
      have hr' : Root u'.parent x r := h2 x r hr
      cases hr' with
      | base hb =>
        rw [hp] at hb
        rw [hb] at hrk
        exact absurd hrk (lt_irrefl _)
      | step _ hr' =>
        rw [Root.unique e3 hr']
        exact hr

/-- C26: `find` terminates within `n` iterations of its loop (at a representative). -/
theorem C26_find_terminates (u : UF n) (h : WF u) (x : Fin n) :
    (u.find n x).1.parent (u.find n x).2 = (u.find n x).2 := by
  obtain ⟨_, _, h3, h4⟩ := find_spec n u x h (above_lt u x)
  exact (h4 _ _ (.base h3.fixed)).fixed

/-- Same representative. -/
def Same (u : UF n) (a b : Fin n) : Prop := ∃ r, Root u.parent a r ∧ Root u.parent b r

theorem link {u : UF n} {ra rb : Fin n} (ha : u.parent ra = ra) (hb : u.parent rb = rb) (hne : ra ≠ rb) {y s : Fin n}
    (h : Root u.parent y s) : Root (Function.update u.parent ra rb) y (if s = ra then rb else s) := by
  have hbb : Root (Function.update u.parent ra rb) rb rb :=
    .base (by rw [Function.update_of_ne (Ne.symm hne)]; exact hb)
  induction h with
  | @base r hr =>
    by_cases hra : r = ra
    · subst hra
      rw [if_pos rfl]
      exact .step (by simpa using Ne.symm hne) (by simpa using hbb)
    · rw [if_neg hra]
      exact .base (by rw [Function.update_of_ne hra]; exact hr)
  | @step y r hy _ ih =>
    have hya : y ≠ ra := by rintro rfl; exact hy ha
    exact .step (by rw [Function.update_of_ne hya]; exact hy) (by rw [Function.update_of_ne hya]; exact ih)

theorem same_link {u : UF n} (hwf : WF u) {u' : UF n} {ra rb : Fin n} (ha : u.parent ra = ra)
    (hb : u.parent rb = rb) (hne : ra ≠ rb) (hp : u'.parent = Function.update u.parent ra rb) (y z : Fin n) :
    Same u' y z ↔ Same u y z ∨ (Root u.parent y ra ∧ Root u.parent z rb) ∨ (Root u.parent y rb ∧ Root u.parent z ra) := by
  obtain ⟨s, hs⟩ := exists_root hwf y
  obtain ⟨t, ht⟩ := exists_root hwf z
  have hs' := link ha hb hne hs
  have ht' := link ha hb hne ht
  rw [← hp] at hs' ht'
  have e1 : Same u' y z ↔ (if s = ra then rb else s) = (if t = ra then rb else t) := by
    constructor
    · rintro ⟨r, h1, h2⟩
      rw [hs'.unique h1, ht'.unique h2]
    · intro h
      exact ⟨_, hs', h ▸ ht'⟩
  have e2 : Same u y z ↔ s = t := by
    constructor
    · rintro ⟨r, h1, h2⟩
      rw [hs.unique h1, ht.unique h2]
    · rintro rfl
      exact ⟨_, hs, ht⟩
  have e3 : ∀ r, Root u.parent y r ↔ s = r := fun r => ⟨fun h => hs.unique h, fun h => h ▸ hs⟩
  have e4 : ∀ r, Root u.parent z r ↔ t = r := fun r => ⟨fun h => ht.unique h, fun h => h ▸ ht⟩
  rw [e1, e2, e3, e3, e4, e4]
  split <;> split
  · rename_i h1 h2; subst h1; subst h2; simp
  · rename_i h1 h2
    subst h1
    constructor
    · intro h; exact Or.inr (Or.inl ⟨rfl, h.symm⟩)
    · rintro (h | ⟨_, h⟩ | ⟨h, h'⟩)
      · exact absurd h.symm h2
      · exact h.symm
      · exact absurd h' h2
  · rename_i h1 h2
    subst h2
    constructor
    · intro h; exact Or.inr (Or.inr ⟨h, rfl⟩)
    · rintro (h | ⟨h, _⟩ | ⟨h, _⟩)
      · exact absurd h h1
      · exact absurd h h1
      · exact h
  · rename_i h1 h2
    constructor
    · intro h; exact Or.inl h
    · rintro (h | ⟨h, _⟩ | ⟨_, h⟩)
      · exact h
      · exact absurd h h1
      · exact absurd h h2

/-- The structure represents the components of `S`. -/
def Repr (u : UF n) (S : Finset (Edge n)) : Prop := WF u ∧ ∀ y z, Same u y z ↔ Conn S y z

theorem repr_create : Repr (UF.create n) ∅ := by
  refine ⟨fun x hx => absurd rfl hx, fun y z => ?_⟩
  rw [conn_empty]
  constructor
  · rintro ⟨r, h1, h2⟩
    have hy : Root (UF.create n).parent y y := .base rfl
    have hz : Root (UF.create n).parent z z := .base rfl
    rw [hy.unique h1, hz.unique h2]
  · rintro rfl
    exact ⟨y, .base rfl, .base rfl⟩

theorem union_spec {u : UF n} {S : Finset (Edge n)} (h : Repr u S) (e : Edge n) :
    Repr (u.union e.1 e.2).1 (insert e S) ∧ ((u.union e.1 e.2).2 = true ↔ ¬ Conn S e.1 e.2) := by
  obtain ⟨hwf, hsame⟩ := h
  obtain ⟨a1, a2, a3, a4⟩ := find_spec n u e.1 hwf (above_lt u e.1)
  obtain ⟨b1, b2, b3, b4⟩ := find_spec n (u.find n e.1).1 e.2 a2 (above_lt _ e.2)
  set ra := (u.find n e.1).2 with hra
  set v := ((u.find n e.1).1.find n e.2).1 with hv
  set rb := ((u.find n e.1).1.find n e.2).2 with hrb
  have hroots : ∀ y s, Root u.parent y s ↔ Root v.parent y s := by
    intro y s
    constructor
    · exact fun h => b4 _ _ (a4 _ _ h)
    · intro h
      obtain ⟨s', hs'⟩ := exists_root hwf y
      rwa [h.unique (b4 _ _ (a4 _ _ hs'))]
  have hsv : ∀ y z, Same v y z ↔ Conn S y z := by
    intro y z
    rw [← hsame]
    unfold Same
    simp only [hroots]
  have hA : Root v.parent e.1 ra := b4 _ _ (a4 _ _ a3)
  have hB : Root v.parent e.2 rb := b4 _ _ b3
  have hAiff : ∀ y, Root v.parent y ra ↔ Conn S y e.1 := by
    intro y
    rw [← hsv]
    constructor
    · exact fun h => ⟨ra, h, hA⟩
    · rintro ⟨r, h1, h2⟩
      rwa [hA.unique h2]
  have hBiff : ∀ y, Root v.parent y rb ↔ Conn S y e.2 := by
    intro y
    rw [← hsv]
    constructor
    · exact fun h => ⟨rb, h, hB⟩
    · rintro ⟨r, h1, h2⟩
      rwa [hB.unique h2]
  have hconn : Conn S e.1 e.2 ↔ ra = rb := by
    rw [← hBiff]
    constructor
    · intro h; exact hA.unique h
    · intro h; rwa [← h]
  have hunion : u.union e.1 e.2 =
      if ra = rb then (v, false)
      else if v.rank ra < v.rank rb then ({ v with parent := Function.update v.parent ra rb }, true)
      else if v.rank rb < v.rank ra then ({ v with parent := Function.update v.parent rb ra }, true)
      else (⟨Function.update v.parent rb ra, Function.update v.rank ra (v.rank ra + 1)⟩, true) := rfl
  have fin1 : ra ≠ rb → ∀ u' : UF n, WF u' → u'.parent = Function.update v.parent ra rb → Repr u' (insert e S) := by
    intro hne u' hw hp
    refine ⟨hw, fun y z => ?_⟩
    rw [same_link b2 hA.fixed hB.fixed hne hp, hsv, hAiff, hBiff, hAiff, hBiff, conn_insert]
    have : ∀ z i, Conn S z i ↔ Conn S i z := fun z i => ⟨Conn.symm, Conn.symm⟩
    rw [this z e.2, this z e.1]
  have fin2 : ra ≠ rb → ∀ u' : UF n, WF u' → u'.parent = Function.update v.parent rb ra → Repr u' (insert e S) := by
    intro hne u' hw hp
    refine ⟨hw, fun y z => ?_⟩
    rw [same_link b2 hB.fixed hA.fixed (Ne.symm hne) hp, hsv, hAiff, hBiff, hAiff, hBiff, conn_insert]
    have : ∀ z i, Conn S z i ↔ Conn S i z := fun z i => ⟨Conn.symm, Conn.symm⟩
    rw [this z e.2, this z e.1]
    tauto
  rw [hunion]
  by_cases hab : ra = rb
  · rw [if_pos hab]
    have hc := hconn.2 hab
    refine ⟨⟨b2, fun y z => ?_⟩, by simp [hc]⟩
    rw [hsv, conn_insert_of_conn hc]
  · rw [if_neg hab]
    have hc : ¬ Conn S e.1 e.2 := fun h => hab (hconn.1 h)
    by_cases h1 : v.rank ra < v.rank rb
    · rw [if_pos h1]
      refine ⟨fin1 hab _ ?_ rfl, by simp [hc]⟩
      intro x hx
      by_cases hxa : x = ra
      · subst hxa; simpa using h1
      · simp only [Function.update_of_ne hxa] at hx ⊢
        exact b2 x hx
    · rw [if_neg h1]
      by_cases h2 : v.rank rb < v.rank ra
      · rw [if_pos h2]
        refine ⟨fin2 hab _ ?_ rfl, by simp [hc]⟩
        intro x hx
        by_cases hxa : x = rb
        · subst hxa; simpa using h2
        · simp only [Function.update_of_ne hxa] at hx ⊢
          exact b2 x hx
      · rw [if_neg h2]
        refine ⟨fin2 hab _ ?_ rfl, by simp [hc]⟩
        intro x hx
        by_cases hxb : x = rb
        · subst hxb
          have hba : rb ≠ ra := Ne.symm hab
          simp only [Function.update_self, Function.update_of_ne hba]
          omega
        · simp only [Function.update_of_ne hxb] at hx ⊢
          have hxa : x ≠ ra := by rintro rfl; exact hx hA.fixed
          rw [Function.update_of_ne hxa]
          have := b2 x hx
          by_cases hpa : v.parent x = ra
          · rw [hpa, Function.update_self]
            rw [hpa] at this
            omega
          · rw [Function.update_of_ne hpa]
            exact this

/-! ## Greedy -/

open Classical in
/-- Keep every edge that joins two components. -/
noncomputable def greedy : List (Edge n) → List (Edge n) → List (Edge n)
  | [], acc => acc
  | e :: l, acc => if Conn acc.toFinset e.1 e.2 then greedy l acc else greedy l (acc ++ [e])

theorem toFinset_snoc (l : List (Edge n)) (e : Edge n) : (l ++ [e]).toFinset = insert e l.toFinset := by
  ext x; simp

theorem greedy_connected {l acc : List (Edge n)} (h : ∀ a b, Conn acc.toFinset a b) : greedy l acc = acc := by
  induction l with
  | nil => rfl
  | cons e l ih => unfold greedy; rw [if_pos (h _ _)]; exact ih

theorem kruskalLoop_eq (l : List (Edge n)) : ∀ (u : UF n) (acc : List (Edge n)) (S : Finset (Edge n)),
    Repr u S → (∀ a b, Conn S a b ↔ Conn acc.toFinset a b) → Forest acc.toFinset → acc.Nodup →
    kruskalLoop l u acc = greedy l acc := by
  induction l with
  | nil => intros; rfl
  | cons e l ih =>
    intro u acc S hu hS hF hnd
    obtain ⟨h1, h2⟩ := union_spec hu e
    have hconn : ∀ T : Finset (Edge n), (∀ a b, Conn S a b ↔ Conn T a b) →
        ∀ a b, Conn (insert e S) a b ↔ Conn (insert e T) a b := by
      intro T hT a b
      rw [conn_insert, conn_insert]
      simp only [hT]
    unfold kruskalLoop greedy
    simp only
    by_cases hc : Conn acc.toFinset e.1 e.2
    · have hf : ¬ (u.union e.1 e.2).2 = true := by rw [h2, hS]; simpa using hc
      rw [if_neg hf, if_pos hc]
      refine ih _ _ _ h1 (fun a b => ?_) hF hnd
      rw [conn_insert_of_conn ((hS _ _).2 hc), hS]
    · have hf : (u.union e.1 e.2).2 = true := by rw [h2, hS]; exact hc
      rw [if_pos hf, if_neg hc]
      have hF' : Forest (acc ++ [e]).toFinset := by rw [toFinset_snoc]; exact hF.insert hc
      have hnd' : (acc ++ [e]).Nodup := by
        rw [List.nodup_append]
        refine ⟨hnd, by simp, ?_⟩
        rintro a ha b hb rfl
        rw [List.mem_singleton] at hb
        subst hb
        exact hc (Conn.edge (List.mem_toFinset.2 ha))
      split
      · rename_i hlen
        refine (greedy_connected (conn_of_comps_le_one ?_)).symm
        have := hF'
        unfold Forest at this
        rw [List.toFinset_card_of_nodup hnd', hlen] at this
        have := e.1.2
        omega
      · refine ih _ _ _ h1 (fun a b => ?_) hF' hnd'
        rw [toFinset_snoc]
        exact hconn _ hS a b

theorem greedy_append (P Q acc : List (Edge n)) : greedy (P ++ Q) acc = greedy Q (greedy P acc) := by
  induction P generalizing acc with
  | nil => rfl
  | cons e P ih =>
    simp only [List.cons_append, greedy]
    split <;> exact ih _

theorem greedy_spec (l : List (Edge n)) : ∀ acc : List (Edge n), Forest acc.toFinset → acc.Nodup →
    Forest (greedy l acc).toFinset ∧ (greedy l acc).Nodup ∧
    (∃ g, greedy l acc = acc ++ g ∧ ∀ e ∈ g, e ∈ l) ∧
    ∀ a b, Conn (greedy l acc).toFinset a b ↔ Conn (acc.toFinset ∪ l.toFinset) a b := by
  induction l with
  | nil => intro acc h1 h2; exact ⟨h1, h2, ⟨[], by simp [greedy], by simp⟩, by simp [greedy]⟩
  | cons e l ih =>
    intro acc h1 h2
    unfold greedy
    split
    · rename_i hc
      obtain ⟨a1, a2, ⟨g, hg, hg'⟩, a4⟩ := ih acc h1 h2
      refine ⟨a1, a2, ⟨g, hg, fun e he => List.mem_cons_of_mem _ (hg' e he)⟩, fun a b => ?_⟩
      rw [a4, List.toFinset_cons, Finset.union_insert, conn_insert_of_conn (hc.mono Finset.subset_union_left)]
    · rename_i hc
      have hF' : Forest (acc ++ [e]).toFinset := by rw [toFinset_snoc]; exact h1.insert hc
      have hnd' : (acc ++ [e]).Nodup := by
        rw [List.nodup_append]
        refine ⟨h2, by simp, ?_⟩
        rintro a ha b hb rfl
        rw [List.mem_singleton] at hb
        subst hb
        exact hc (Conn.edge (List.mem_toFinset.2 ha))
      obtain ⟨a1, a2, ⟨g, hg, hg'⟩, a4⟩ := ih _ hF' hnd'
      refine ⟨a1, a2, ⟨e :: g, by rw [hg]; simp, ?_⟩, fun a b => ?_⟩
      · intro x hx
        rcases List.mem_cons.1 hx with rfl | hx
        · simp
        · exact List.mem_cons_of_mem _ (hg' x hx)
      · rw [a4, toFinset_snoc, List.toFinset_cons, Finset.union_insert, Finset.insert_union]

/-- Greedy has at least as many edges of every prefix as any forest. -/
theorem greedy_dominates {P Q : List (Edge n)} (hnd : (P ++ Q).Nodup) {T : Finset (Edge n)} (hT : Forest T) :
    (T.filter (· ∈ P)).card ≤ ((greedy (P ++ Q) []).toFinset.filter (· ∈ P)).card := by
  have h0 : Forest ([] : List (Edge n)).toFinset := by simpa using Forest.empty
  obtain ⟨p1, p2, ⟨g, hg, hg'⟩, p4⟩ := greedy_spec P [] h0 (by simp)
  obtain ⟨q1, q2, ⟨g2, hg2, hg2'⟩, q4⟩ := greedy_spec Q (greedy P []) p1 p2
  rw [List.nil_append] at hg
  have hset : (greedy (P ++ Q) []).toFinset.filter (· ∈ P) = (greedy P []).toFinset := by
    rw [greedy_append, hg2]
    ext x
    simp only [Finset.mem_filter, List.mem_toFinset, List.mem_append]
    constructor
    · rintro ⟨h | h, hx⟩
      · exact h
      · exact absurd rfl ((List.nodup_append.1 hnd).2.2 x hx x (hg2' x h))
    · intro h
      exact ⟨Or.inl h, hg' x (hg ▸ h)⟩
  rw [hset]
  have h1 : Forest (T.filter (· ∈ P)) := hT.subset (Finset.filter_subset _ _)
  have h2 : comps (greedy P []).toFinset ≤ comps (T.filter (· ∈ P)) := by
    refine comps_anti fun a b hab => ?_
    rw [p4]
    refine hab.mono fun x hx => ?_
    have := (Finset.mem_filter.1 hx).2
    simpa using this
  unfold Forest at h1 p1
  omega

/-- Summation by parts: if `A` has at least as many elements as `B` in every prefix of a list sorted by weight, and equally
many in total, it weighs at most as much. -/
theorem sum_le_of_dominates {α : Type} [DecidableEq α] (w : α → ℝ) (A B : Finset α) (l : List α)
    (hs : l.Pairwise fun a b => w a ≤ w b) : ∀ (D : ℤ) (m : ℝ), 0 ≤ D → (∀ a ∈ l, m ≤ w a) →
    (∀ P Q, l = P ++ Q → 0 ≤ D + (P.map fun a => (if a ∈ A then (1:ℤ) else 0) - if a ∈ B then 1 else 0).sum) →
    D + (l.map fun a => (if a ∈ A then (1:ℤ) else 0) - if a ∈ B then 1 else 0).sum = 0 →
    (l.map fun a => w a * ((if a ∈ A then (1:ℝ) else 0) - if a ∈ B then 1 else 0)).sum ≤ - (D : ℝ) * m := by
  induction l with
  | nil =>
    intro D m hD _ _ ht
    simp only [List.map_nil, List.sum_nil, add_zero] at ht
    simp [ht]
  | cons a l ih =>
    intro D m hD hm hp ht
    rw [List.pairwise_cons] at hs
    simp only [List.map_cons, List.sum_cons] at ht ⊢
    set d : ℤ := (if a ∈ A then (1:ℤ) else 0) - if a ∈ B then 1 else 0 with hd
    have hdr : ((if a ∈ A then (1:ℝ) else 0) - if a ∈ B then 1 else 0) = (d : ℝ) := by
      rw [hd]; push_cast; rfl
    have h1 : 0 ≤ D + d := by
      have := hp [a] l rfl
      simpa using this
    have := ih hs.2 (D + d) (w a) h1 hs.1 (fun P Q h => by
      have := hp (a :: P) Q (by rw [h]; rfl)
      simp only [List.map_cons, List.sum_cons] at this
      rw [add_assoc]; exact this) (by rw [add_assoc]; exact ht)
    rw [hdr]
    push_cast at this
    have hDr : (0:ℝ) ≤ D := by exact_mod_cast hD
    have hma := hm a (by simp)
    nlinarith

/-! ## Edge lists -/

theorem mem_triu {e : Edge n} : e ∈ triu n ↔ e.1 < e.2 := by
  simp only [triu, List.mem_flatMap, List.mem_finRange, List.mem_map, List.mem_filter, decide_eq_true_eq, true_and]
  constructor
  · rintro ⟨i, j, h, rfl⟩; exact h
  · intro h; exact ⟨e.1, e.2, h, rfl⟩

theorem nodup_triu : (triu n).Nodup := by
  unfold triu
  rw [List.nodup_flatMap]
  refine ⟨fun i _ => ((List.nodup_finRange n).filter _).map fun a b h => (Prod.mk.inj h).2, ?_⟩
  refine (List.nodup_finRange n).imp fun {a b} hab => ?_
  intro x hx hy
  obtain ⟨_, _, rfl⟩ := List.mem_map.1 hx
  obtain ⟨_, _, h⟩ := List.mem_map.1 hy
  exact hab (Prod.mk.inj h).1.symm

theorem order_perm (w : Edge n → EReal) (mi : Bool) : (order n w mi).Perm (triu n) := List.perm_insertionSort _ _

theorem order_nodup (w : Edge n → EReal) (mi : Bool) : (order n w mi).Nodup := (order_perm w mi).nodup_iff.2 nodup_triu

theorem mem_order {w : Edge n → EReal} {mi : Bool} {e : Edge n} : e ∈ order n w mi ↔ e.1 < e.2 := by
  rw [(order_perm w mi).mem_iff, mem_triu]

theorem order_sorted (w : Edge n → EReal) (mi : Bool) :
    (order n w mi).Pairwise fun e f => (if mi then w e else - w e) ≤ (if mi then w f else - w f) := by
  classical
  have : (order n w mi).Pairwise (fun e f => toLex ((if mi then w e else - w e), toLex e) ≤
      toLex ((if mi then w f else - w f), toLex f)) := by
    unfold order
    have : Std.Total (fun e f : Edge n => toLex ((if mi then w e else - w e), toLex e) ≤
      toLex ((if mi then w f else - w f), toLex f)) := ⟨fun a b => le_total _ _⟩
    have : IsTrans (Edge n) (fun e f : Edge n => toLex ((if mi then w e else - w e), toLex e) ≤
      toLex ((if mi then w f else - w f), toLex f)) := ⟨fun a b c => le_trans⟩
    exact List.pairwise_insertionSort _ _
  refine this.imp fun {e f} h => ?_
  rw [Prod.Lex.toLex_le_toLex] at h
  rcases h with h | h
  · exact h.le
  · exact h.1.le

theorem conn_complete {S : Finset (Edge n)} (h : ∀ e : Edge n, e.1 < e.2 → e ∈ S) (a b : Fin n) :
    Conn S a b := by
  rcases lt_trichotomy a b with hab | rfl | hab
  · exact Conn.edge (e := (a, b)) (h _ hab)
  · exact .refl _ _
  · exact (Conn.edge (e := (b, a)) (h _ hab)).symm

/-- Result of Kruskal's algorithm without the final canonicalisation. -/
noncomputable def kr (w : Edge n → EReal) (mi : Bool) : List (Edge n) := greedy (order n w mi) []

theorem kr_tree (hn : 0 < n) (w : Edge n → EReal) (mi : Bool) :
    IsSpanningTree (kr w mi).toFinset ∧ (kr w mi).Nodup ∧ ∀ e ∈ kr w mi, e.1 < e.2 := by
  have h0 : Forest ([] : List (Edge n)).toFinset := by simpa using Forest.empty
  obtain ⟨p1, p2, ⟨g, hg, hg'⟩, p4⟩ := greedy_spec (order n w mi) [] h0 (by simp)
  rw [List.nil_append] at hg
  have hlt : ∀ e ∈ kr w mi, e.1 < e.2 := fun e he => mem_order.1 (hg' e (hg ▸ he))
  refine ⟨spanning_of_forest (fun e he => hlt e (List.mem_toFinset.1 he)) p1 (fun a b => ?_) hn, p2, hlt⟩
  refine (p4 a b).2 ?_
  exact conn_complete (fun e he => by simp [mem_order, he]) a b

theorem canon_of_lt {e : Edge n} (h : e.1 < e.2) : canon e = e := by unfold canon; rw [if_pos h.le]

theorem map_canon {l : List (Edge n)} (h : ∀ e ∈ l, e.1 < e.2) : l.map canon = l := by
  conv_rhs => rw [← List.map_id l]
  exact List.map_congr_left fun e he => canon_of_lt (h e he)

theorem kruskal_eq (hn : 0 < n) (w : Edge n → EReal) (mi : Bool) : kruskal n w mi = .ok (kr w mi) := by
  unfold kruskal
  rw [if_neg hn.ne']
  congr 1
  rw [kruskalLoop_eq _ (UF.create n) [] ∅ repr_create (by simp) (by simpa using Forest.empty) (by simp)]
  exact map_canon (kr_tree hn w mi).2.2

/-- Cost of a set of edges. -/
noncomputable def cost (w : Edge n → ℝ) (T : Finset (Edge n)) : ℝ := ∑ e ∈ T, w e

/-- Spanning trees that contain `inc` and avoid `exc`. -/
def Cls (inc exc : List (Edge n)) (T : Finset (Edge n)) : Prop :=
  IsSpanningTree T ∧ (∀ e ∈ inc, e ∈ T) ∧ ∀ e ∈ exc, e ∉ T

theorem split_sorted {α : Type} {l : List α} (p : α → Prop) [DecidablePred p]
    (h : l.Pairwise fun a b => p b → p a) : l = l.filter p ++ l.filter fun a => ¬ p a := by
  induction l with
  | nil => rfl
  | cons a l ih =>
    rw [List.pairwise_cons] at h
    by_cases ha : p a
    · simp only [List.filter_cons, ha, decide_true, if_true, not_true_eq_false, decide_false, List.cons_append]
      simp only [Bool.false_eq_true, if_false]
      rw [← ih h.2]
    · have hall : ∀ b ∈ l, ¬ p b := fun b hb hpb => ha (h.1 b hb hpb)
      have e1 : l.filter p = [] := by
        rw [List.filter_eq_nil_iff]; intro b hb; simpa using hall b hb
      have e2 : l.filter (fun a => ¬ p a) = l := by
        rw [List.filter_eq_self]; intro b hb; simpa using hall b hb
      rw [List.filter_cons_of_neg (by simpa using ha), List.filter_cons_of_pos (by simpa using ha), e1, e2]
      rfl

theorem kr_dominates {w : Edge n → EReal} {mi : Bool} {T : Finset (Edge n)} (hT : IsSpanningTree T)
    {P Q : List (Edge n)} (h : order n w mi = P ++ Q) :
    (T.filter (· ∈ P)).card ≤ ((kr w mi).toFinset.filter (· ∈ P)).card := by
  unfold kr
  rw [h]
  exact greedy_dominates (by rw [← h]; exact order_nodup w mi) hT.forest

theorem sum_indicator {α : Type} [DecidableEq α] {l : List α} (hl : l.Nodup) (A : Finset α) (f : α → ℝ)
    (hA : ∀ a ∈ A, a ∈ l) : (l.map fun a => f a * if a ∈ A then (1:ℝ) else 0).sum = ∑ a ∈ A, f a := by
  rw [← List.sum_toFinset _ hl]
  simp only [mul_ite, mul_one, mul_zero]
  rw [← Finset.sum_filter]
  congr 1
  ext a
  simp only [Finset.mem_filter, List.mem_toFinset]
  exact ⟨fun h => h.2, fun h => ⟨hA a h, h⟩⟩

theorem sum_count {α : Type} [DecidableEq α] {l : List α} (hl : l.Nodup) (A : Finset α) :
    (l.map fun a => if a ∈ A then (1:ℤ) else 0).sum = ((A.filter (· ∈ l)).card : ℤ) := by
  rw [← List.sum_toFinset _ hl, Finset.sum_boole]
  congr 2
  ext a
  simp [and_comm]

theorem sum_map_sub' {α G : Type} [AddCommGroup G] (l : List α) (f g : α → G) :
    (l.map fun a => f a - g a).sum = (l.map f).sum - (l.map g).sum := by
  induction l with
  | nil => simp
  | cons a l ih => simp only [List.map_cons, List.sum_cons, ih]; abel


/-- Key fact: with the constrained weights, Kruskal's tree belongs to the class whenever the class is not empty, and is
cheapest in it. -/
theorem kr_class (hn : 0 < n) (w : Edge n → ℝ) {inc exc : List (Edge n)} (hi : ∀ e ∈ inc, e.1 < e.2)
    (hx : ∀ e ∈ exc, e.1 < e.2) {T : Finset (Edge n)} (hT : Cls inc exc T) :
    Cls inc exc (kr (reuse w inc exc) true).toFinset ∧ cost w (kr (reuse w inc exc) true).toFinset ≤ cost w T := by
  set W := reuse w inc exc with hW
  obtain ⟨hKt, hKnd, hKlt⟩ := kr_tree hn W true
  set K := (kr W true).toFinset with hK
  have hdec1 : DecidablePred (fun e => W e = ⊥) := Classical.decPred _
  have hdec2 : DecidablePred (fun e => W e ≠ ⊤) := Classical.decPred _
  have hord := order_nodup W true
  have hsort := order_sorted W true
  simp only [if_true] at hsort
  have hval : ∀ e : Edge n, e.1 < e.2 → W e = if e ∈ exc then ⊤ else if e ∈ inc then ⊥ else (w e : EReal) := by
    intro e he
    rw [hW]
    unfold reuse
    rw [canon_of_lt he, map_canon hi, map_canon hx]
  have hdis : ∀ e ∈ inc, e ∉ exc := fun e h1 h2 => hT.2.2 e h2 (hT.2.1 e h1)
  have hbot : ∀ e : Edge n, e.1 < e.2 → (W e = ⊥ ↔ e ∈ inc) := by
    intro e he
    rw [hval e he]
    by_cases h1 : e ∈ exc
    · simp only [h1, if_true]
      constructor
      · intro h; simp at h
      · intro h; exact absurd h1 (hdis e h)
    · by_cases h2 : e ∈ inc <;> simp [h1, h2]
  have htop : ∀ e : Edge n, e.1 < e.2 → (W e = ⊤ ↔ e ∈ exc) := by
    intro e he
    rw [hval e he]
    by_cases h1 : e ∈ exc
    · simp [h1]
    · by_cases h2 : e ∈ inc <;> simp [h1, h2]
  -- included edges
  have hinc : ∀ e ∈ inc, e ∈ K := by
    have hsplit := split_sorted (l := order n W true) (fun e => W e = ⊥) (hsort.imp fun {a b} h hb => by
      rw [hb] at h; exact le_bot_iff.1 h)
    have hd := kr_dominates hT.1 hsplit
    rw [← hK] at hd
    set P := (order n W true).filter fun e => W e = ⊥ with hP
    have hPm : ∀ e, e ∈ P ↔ e ∈ inc := by
      intro e
      rw [hP, List.mem_filter, mem_order, decide_eq_true_eq]
      constructor
      · rintro ⟨h1, h2⟩; exact (hbot e h1).1 h2
      · intro h; exact ⟨hi e h, (hbot e (hi e h)).2 h⟩
    have h1 : T.filter (· ∈ P) = P.toFinset := by
      ext e
      simp only [Finset.mem_filter, List.mem_toFinset, hPm]
      exact ⟨fun h => h.2, fun h => ⟨hT.2.1 e h, h⟩⟩
    have h2 : K.filter (· ∈ P) ⊆ P.toFinset := by
      intro e he
      exact List.mem_toFinset.2 (Finset.mem_filter.1 he).2
    rw [h1] at hd
    have h3 := Finset.eq_of_subset_of_card_le h2 hd
    intro e he
    have : e ∈ P.toFinset := List.mem_toFinset.2 ((hPm e).2 he)
    rw [← h3] at this
    exact (Finset.mem_filter.1 this).1
  -- excluded edges
  have hexc : ∀ e ∈ exc, e ∉ K := by
    have hsplit := split_sorted (l := order n W true) (fun e => W e ≠ ⊤) (hsort.imp fun {a b} h hb ha => by
      rw [ha] at h; exact hb (top_le_iff.1 h))
    have hd := kr_dominates hT.1 hsplit
    rw [← hK] at hd
    set P := (order n W true).filter fun e => W e ≠ ⊤ with hP
    have hPm : ∀ e, e ∈ P ↔ e.1 < e.2 ∧ e ∉ exc := by
      intro e
      rw [hP, List.mem_filter, mem_order, decide_eq_true_eq]
      constructor
      · rintro ⟨h1, h2⟩; exact ⟨h1, fun h => h2 ((htop e h1).2 h)⟩
      · rintro ⟨h1, h2⟩; exact ⟨h1, fun h => h2 ((htop e h1).1 h)⟩
    have h1 : T.filter (· ∈ P) = T := by
      rw [Finset.filter_eq_self]
      intro e he
      exact (hPm e).2 ⟨hT.1.1 e he, fun h => hT.2.2 e h he⟩
    rw [h1] at hd
    have hc : K.card ≤ T.card := by
      have := hKt.2.1; have := hT.1.2.1
      omega
    have h3 := Finset.eq_of_subset_of_card_le (Finset.filter_subset (· ∈ P) K) (hc.trans hd)
    intro e he hek
    rw [← h3] at hek
    exact ((hPm e).1 (Finset.mem_filter.1 hek).2).2 he
  refine ⟨⟨hKt, hinc, hexc⟩, ?_⟩
  -- weights
  obtain ⟨L, hL⟩ : ∃ L, ∀ e : Edge n, L ≤ w e := by
    obtain ⟨e0, _, h⟩ := Finset.exists_min_image Finset.univ w ⟨(⟨0, hn⟩, ⟨0, hn⟩), Finset.mem_univ _⟩
    exact ⟨w e0, fun e => h e (Finset.mem_univ _)⟩
  obtain ⟨U, hU⟩ : ∃ U, ∀ e : Edge n, w e ≤ U := by
    obtain ⟨e0, _, h⟩ := Finset.exists_max_image Finset.univ w ⟨(⟨0, hn⟩, ⟨0, hn⟩), Finset.mem_univ _⟩
    exact ⟨w e0, fun e => h e (Finset.mem_univ _)⟩
  have hLU : L ≤ U := (hL (⟨0, hn⟩, ⟨0, hn⟩)).trans (hU _)
  let w' : Edge n → ℝ := fun e => if e ∈ exc then U else if e ∈ inc then L else w e
  have hsort' : (order n W true).Pairwise fun a b => w' a ≤ w' b := by
    refine List.Pairwise.imp_of_mem (fun {a b} ha hb h => ?_) hsort
    rw [hval a (mem_order.1 ha), hval b (mem_order.1 hb)] at h
    show (if a ∈ exc then U else if a ∈ inc then L else w a) ≤ (if b ∈ exc then U else if b ∈ inc then L else w b)
    by_cases a1 : a ∈ exc
    · simp only [a1, if_true] at h ⊢
      by_cases b1 : b ∈ exc
      · simp [b1]
      · exfalso
        by_cases b2 : b ∈ inc
        · simp [b1, b2] at h
        · simp [b1, b2] at h
    · by_cases b1 : b ∈ exc
      · simp only [a1, b1, if_true, if_false]
        split
        · exact hLU
        · exact hU a
      · simp only [a1, b1, if_false] at h ⊢
        by_cases a2 : a ∈ inc
        · simp only [a2, if_true]
          split
          · exact le_rfl
          · exact hL b
        · by_cases b2 : b ∈ inc
          · exfalso
            simp [a2, b2] at h
          · simp only [a2, b2, if_false] at h ⊢
            exact_mod_cast h
  have hin : ∀ S : Finset (Edge n), IsSpanningTree S → ∀ a ∈ S, a ∈ order n W true :=
    fun S hS a ha => mem_order.2 (hS.1 a ha)
  have hdiff : ∀ P Q, order n W true = P ++ Q →
      (P.map fun a => (if a ∈ K then (1:ℤ) else 0) - if a ∈ T then 1 else 0).sum =
        ((K.filter (· ∈ P)).card : ℤ) - ((T.filter (· ∈ P)).card : ℤ) := by
    intro P Q h
    have hPnd : P.Nodup := by
      have := hord
      rw [h] at this
      exact (List.nodup_append.1 this).1
    have h1 := sum_count hPnd K
    have h2 := sum_count hPnd T
    rw [sum_map_sub', h1, h2]
    congr!
  have hmain := sum_le_of_dominates w' K T (order n W true) hsort' 0 L le_rfl
    (fun a _ => by
      show L ≤ if a ∈ exc then U else if a ∈ inc then L else w a
      split
      · exact hLU
      · split
        · exact le_rfl
        · exact hL a)
    (fun P Q h => by
      rw [hdiff P Q h]
      have := kr_dominates (mi := true) hT.1 h
      have : ((T.filter (· ∈ P)).card : ℤ) ≤ ((K.filter (· ∈ P)).card : ℤ) := by exact_mod_cast this
      omega)
    (by
      rw [hdiff (order n W true) [] (by simp)]
      rw [Finset.filter_eq_self.2 (hin K hKt), Finset.filter_eq_self.2 (hin T hT.1)]
      have := hKt.2.1; have := hT.1.2.1
      have : K.card = T.card := by omega
      rw [this]; simp)
  simp only [mul_sub] at hmain
  rw [sum_map_sub', sum_indicator hord K w' (hin K hKt), sum_indicator hord T w' (hin T hT.1)] at hmain
  have hKK : ∀ S, Cls inc exc S → ∑ a ∈ S, w' a = (∑ a ∈ S, w a) + ∑ a ∈ inc.toFinset, (L - w a) := by
    intro S hS
    have hsub : inc.toFinset ⊆ S := fun e he => hS.2.1 e (List.mem_toFinset.1 he)
    have e1 : ∀ a ∈ S, w' a = w a + if a ∈ inc.toFinset then L - w a else 0 := by
      intro a ha
      have : a ∉ exc := fun h => hS.2.2 a h ha
      show (if a ∈ exc then U else if a ∈ inc then L else w a) = _
      rw [if_neg this]
      by_cases h2 : a ∈ inc <;> simp [h2]
    rw [Finset.sum_congr rfl e1, Finset.sum_add_distrib, ← Finset.sum_filter]
    congr 2
    ext a
    simp only [Finset.mem_filter]
    exact ⟨fun h => h.2, fun h => ⟨hsub h, h⟩⟩
  rw [hKK K ⟨hKt, hinc, hexc⟩, hKK T hT] at hmain
  unfold cost
  simp at hmain
  linarith

end Verif.Mst

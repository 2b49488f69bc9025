import Verif.RatBuild

/-!
Helper lemmas for C67 and C68: the leaf layer of a RatSPN or Einet.
-/

open MeasureTheory

namespace Verif.Rat

open Finset Verif.Circ
open Verif.Prog hiding bind

variable {μ : Var → Measure ℝ}

/-- The `leaf_modules` argument: at least one leaf module, all with `C` channels and `Rl` repetitions, valid and pairwise
disjoint scopes, normalised with respect to `μ`. -/
structure Leaves (μ : Var → Measure ℝ) (leaves : List Circ) (C Rl : ℕ) : Prop where
  ne : leaves ≠ []
  leaf : ∀ m ∈ leaves, ∃ q d, m = .leaf q C Rl d
  acc : ∀ m ∈ leaves, Accepted m
  lf : ∀ m ∈ leaves, LeafOk μ m
  disj : leaves.Pairwise fun a b => ∀ v ∈ (scope a).query, v ∉ (scope b).query

/-- The number of variables of the leaves. -/
def width (leaves : List Circ) : ℕ := (leaves.map fun m => (scope m).query.length).sum

/-- Is `v` a variable of some leaf? -/
def InScope (leaves : List Circ) (v : Var) : Prop := ∃ m ∈ leaves, v ∈ (scope m).query

/-- No leaf component - no feature, channel, repetition of any leaf - has density zero at the row's observed values. -/
def Possible (leaves : List Circ) (x : Row) : Prop :=
  ∀ m ∈ leaves, ∀ i < m.F, ∀ ch < m.C, ∀ r < m.R, featAt (den m) i x r ch ≠ ⊥

/-- The module that `Factorize` receives. -/
structure Joined (μ : Var → Measure ℝ) (leaves : List Circ) (C Rl : ℕ) (c : Circ) : Prop where
  join : joinInputs leaves = .ok c
  scopes : ∃ s, Scope.joinAll (leaves.map scope) = .ok s ∧ s.query.length = width leaves
  acc : Accepted c
  al : Aligned c
  lf : LeafOk μ c
  chans : c.C = C
  reps : tensorR c = some Rl
  width : c.F = width leaves
  query : (scope c).query.length = Rat.width leaves
  mem : ∀ v, v ∈ (scope c).query ↔ InScope leaves v
  pos : 1 ≤ C → PosCh c
  repS : ∀ r < Rl, RepS r c
  live : ∀ e r, Circ.Live e r c
  possible : ∀ R x, (Rl = R ∨ Rl = 1) → 1 ≤ R → ((∀ r < R, ∀ i < c.F, ∀ ch < c.C, featAt (den c) i x r ch ≠ ⊥) ↔ Possible leaves x)

theorem leaf_possible {m : Circ} {C Rl : ℕ} (h : ∃ q d, m = .leaf q C Rl d) {R : ℕ} (hR : Rl = R ∨ Rl = 1) (hR1 : 1 ≤ R)
    (x : Row) : (∀ r < R, ∀ i < m.F, ∀ ch < m.C, featAt (den m) i x r ch ≠ ⊥) ↔
      ∀ i < m.F, ∀ ch < m.C, ∀ r < m.R, featAt (den m) i x r ch ≠ ⊥ := by
  obtain ⟨q, d, rfl⟩ := h
  constructor
  · intro h i hi ch hch r hr
    replace hr : r < Rl := hr
    exact h r (by rcases hR with h | h <;> omega) i hi ch hch
  · intro h r hr i hi ch hch
    rcases hR with rfl | rfl
    · exact h i hi ch hch r hr
    · have hq : q[i]? = some q[i] := List.getElem?_eq_getElem hi
      have := h i hi ch hch 0 Nat.one_pos
      rw [featAt_leaf hq] at this ⊢
      have e : ∀ r, bc 1 r = 0 := fun r => by simp [bc]
      rw [e] at this ⊢
      exact this

theorem Leaves.joined {leaves : List Circ} {C Rl : ℕ} (h : Leaves μ leaves C Rl) : ∃ c, Joined μ leaves C Rl c := by
  have hC : ∀ m ∈ leaves, m.C = C := fun m hm => by obtain ⟨q, d, rfl⟩ := h.leaf m hm; rfl
  have hval : ∀ t ∈ leaves.map scope, Scope.Valid t := by
    intro t ht
    obtain ⟨m, hm, rfl⟩ := List.mem_map.1 ht
    exact (scope_facts (h.acc m hm)).1
  obtain ⟨s, hs, hsv, hsq, -⟩ := Scope.joinAll_ok (leaves.map scope) (by simpa using h.ne) hval
  have hmem : ∀ v, v ∈ s.query ↔ InScope leaves v := by
    intro v
    rw [hsq v]
    unfold InScope
    simp
  have hqe : (leaves.map fun m => (scope m).query).flatten.length = width leaves := by
    rw [List.length_flatten, List.map_map]; rfl
  have hnd : (leaves.map fun m => (scope m).query).flatten.Nodup := by
    rw [List.nodup_flatten]
    constructor
    · intro l hl
      obtain ⟨m, hm, rfl⟩ := List.mem_map.1 hl
      exact (scope_facts (h.acc m hm)).1.query_nodup
    · rw [List.pairwise_map]
      exact h.disj.imp fun hab => List.disjoint_left.2 fun v hv => hab v hv
  have hlen : s.query.length = width leaves := by
    rw [← hqe]
    refine List.Perm.length_eq ((List.perm_ext_iff_of_nodup hsv.query_nodup hnd).2 fun v => ?_)
    rw [hmem v]
    simp [InScope]
  by_cases h1 : ∃ c, leaves = [c]
  · obtain ⟨c, rfl⟩ := h1
    have hc : c ∈ [c] := by simp
    obtain ⟨q, d, rfl⟩ := h.leaf c hc
    refine ⟨_, rfl, ⟨s, hs, hlen⟩, h.acc _ hc, trivial, h.lf _ hc, rfl, rfl, by simp [width, F, scope], by simp [width, scope],
      fun v => by simp [InScope], fun h => h, fun r hr => hr, fun _ _ => trivial, ?_⟩
    intro R x hR hR1
    rw [leaf_possible ⟨q, d, rfl⟩ hR hR1]
    simp [Possible]
  · have hck : check1 leaves = .ok () := check1_of h.ne hC (fun m hm => (scope_facts (h.acc m hm)).1) h.disj
    have hpos : 0 < leaves.length := List.length_pos_of_ne_nil h.ne
    have hCc : (cat1 leaves.length leaves.get).C = C := by
      simp only [Circ.C, hpos, dif_pos]
      exact hC _ (List.get_mem _ _)
    have hacc : Accepted (cat1 leaves.length leaves.get) := by
      refine ⟨fun i => h.acc _ (List.get_mem leaves i), ?_⟩
      rw [List.ofFn_get]; exact hck
    have hmk : mkCat 1 leaves = .ok (cat1 leaves.length leaves.get) := by
      unfold mkCat
      simp only [if_true, bind, Except.bind, pure, Except.pure, hck]
    have hsc : scope (cat1 leaves.length leaves.get) = s := scope_cat1 (by rw [List.ofFn_get]; exact hs)
    have hF : (cat1 leaves.length leaves.get).F = width leaves := by
      show (List.ofFn fun i : Fin leaves.length => F (leaves.get i)).sum = (leaves.map fun m => (scope m).query.length).sum
      congr 1
      apply List.ext_getElem
      · simp
      · intro i h1 h2
        simp only [List.getElem_ofFn, List.getElem_map, List.get_eq_getElem]
        have hi : i < leaves.length := by simpa using h2
        obtain ⟨q, d, e⟩ := h.leaf leaves[i] (List.getElem_mem hi)
        rw [e]; rfl
    refine ⟨cat1 leaves.length leaves.get, ?_, ⟨s, hs, hlen⟩, hacc, fun i => ?_, fun i => h.lf _ (List.get_mem leaves i), hCc, ?_, hF,
      by rw [hsc]; exact hlen, fun v => by rw [hsc]; exact hmem v, fun hp i => ?_, fun r hr i => ?_, fun e r i => ?_, ?_⟩
    · unfold joinInputs
      split
      · rename_i c; exact absurd ⟨c, rfl⟩ h1
      · exact hmk
    · obtain ⟨q, d, e⟩ := h.leaf _ (List.get_mem leaves i)
      rw [e]; trivial
    · refine tensorR_cat1.2 ⟨hpos, fun i => ?_⟩
      obtain ⟨q, d, e⟩ := h.leaf _ (List.get_mem leaves i)
      rw [e]; rfl
    · obtain ⟨q, d, e⟩ := h.leaf _ (List.get_mem leaves i)
      rw [e]; exact hp
    · obtain ⟨q, d, e⟩ := h.leaf _ (List.get_mem leaves i)
      rw [e]; exact hr
    · obtain ⟨q, d, e⟩ := h.leaf _ (List.get_mem leaves i)
      rw [e]; trivial
    · intro R x hR hR1
      have hcg : ∀ i : Fin leaves.length, (leaves.get i).C = C := fun i => hC _ (List.get_mem leaves i)
      constructor
      · intro hall m hm
        refine (leaf_possible (h.leaf m hm) hR hR1 x).1 fun r hr j hj ch hch => ?_
        obtain ⟨i, rfl⟩ := List.get_of_mem hm
        have := hall r hr (offF leaves.get i + j) (offF_lt i hj) ch (by rw [hCc, ← hcg i]; exact hch)
        rw [featAt_cat1 i hj] at this
        exact this
      · intro hall r hr f hf ch hch
        obtain ⟨i, j, hj, rfl⟩ := exists_cat1_index hf
        rw [featAt_cat1 i hj]
        have hm := List.get_mem leaves i
        exact (leaf_possible (h.leaf _ hm) hR hR1 x).2 (hall _ hm) r hr j hj ch (by rw [hcg i, ← hCc]; exact hch)

end Verif.Rat

import Verif.QpcMain
/-
C82: which arguments `TensorizedQPC` accepts, and what `log_likelihood` returns.
-/
namespace Verif.Qpc
open Finset Graph Scope

/-- The region graphs considered: the regions reachable from the root lie in the finite set `U`, there is no cycle, and
all partitions are disjoint decompositions (as after `add_partition`, C05). -/
structure Proper (g : RG) (U : Finset ℕ) (root fuel : ℕ) : Prop where
  closed : Closed g.children U
  root : root ∈ U
  fuel : U.card < fuel
  acyclic : ∃ rk : ℕ → ℕ, ∀ a, ∀ c ∈ g.children a, rk c < rk a
  valid : ∀ r, ∀ p ∈ g.parts r, ValidPartition g r p

/-- Every history of `add_partition` calls with at least two non-empty parts gives such a graph. -/
theorem proper_of_built {scope : ℕ → Scope} (hs : ∀ k, Reachable (scope k)) {g : RG} (h : Built scope g)
    (hne : ∀ k, (scope k).query ≠ []) (h2 : ∀ r, ∀ p ∈ g.parts r, 2 ≤ p.length) {U : Finset ℕ} {root fuel : ℕ}
    (hU : Closed g.children U) (hr : root ∈ U) (hf : U.card < fuel) : Proper g U root fuel :=
  ⟨hU, hr, hf, ⟨fun r => (g.scope r).query.length, C05_acyclic scope hs g h hne h2⟩, (C05_history scope hs g h).2⟩

/-- Leaf regions of the graph. -/
def IsLeaf (g : RG) (root r : ℕ) : Prop := Reach g.children root r ∧ g.parts r = []

theorem assign_leaf {leaves : List ℕ} {r : ℕ} (h : r ∈ leaves) :
    ∃ i, leafLoc leaves r = some (i, 0) ∧ leaves[i]? = some r := by
  obtain ⟨i, hi, e⟩ := List.getElem_of_mem h
  obtain ⟨ai, ha, hk, hs⟩ := assign_mem (fun ri : ℕ × ℕ => some ri.1) 0 (r := r) leaves.zipIdx (fun _ => none)
    ⟨(r, i), List.mem_iff_getElem?.2 ⟨i, by simp [List.getElem?_eq_getElem hi, e]⟩, rfl⟩
  have hg := List.mem_zipIdx_iff_getElem?.1 ha
  have e' : ai.1 = r := by simpa using hk
  refine ⟨ai.2, hs, ?_⟩
  rw [hg, e']

/-- The loop over the heights, started on the leaves. -/
theorem build_ok {g : RG} {U : Finset ℕ} {root fuel : ℕ} (hP : Proper g U root fuel) {post : List ℕ}
    (hpost : postOrder g.children fuel root = some post) {ρ : Rule} (hρ : ρ.Pos) (hK : 0 < ρ.K) (θ : Params) (cls : Cls)
    (classes : ℕ) {leaves : List ℕ} (hlv : ∀ r, r ∈ leaves ↔ IsLeaf g root r) (x0 : (Var → ℝ) → Ten)
    (hx0 : ∀ x, (x0 x).units = ρ.K ∧ (x0 x).folds.length = leaves.length) :
    ∃ st outs hgt, build g cls ρ.K classes post leaves = .ok st ∧ IsHeight g post hgt ∧
      (∀ x, x ∈ post ↔ Reach g.children root x) ∧
      (∀ r, IsLeaf g root r → ∃ i, leaves[i]? = some r ∧ ∀ x k, at' (outs x) ((st.loc r).getD (0, 0)) k = (x0 x).folds.getD i 0 k) ∧
      (g.parts root = [] → outs = fun x => [x0 x]) ∧
      Inv g ρ θ cls classes post root hgt x0 (leafLoc leaves) (hgt root) st outs := by
  obtain ⟨rk, hrk⟩ := hP.acyclic
  obtain ⟨post', h1, hnd, hreach, hcf⟩ := C05_post_order g.children U hP.closed root hP.root fuel hP.fuel
  rw [hpost] at h1
  have e : post = post' := by simpa using h1
  subst e
  have hroot : root ∈ post := (hreach root).2 Relation.ReflTransGen.refl
  have hcl : ∀ r ∈ post, ∀ c ∈ g.children r, c ∈ post := fun r hr c hc =>
    (hreach c).2 (Relation.ReflTransGen.tail ((hreach r).1 hr) hc)
  obtain ⟨hgt, hh, hH⟩ := heights_ok hnd (hcf rk hrk) fun r _ p hp => (hP.valid r p hp).1
  have hmax := height_root hH hreach
  obtain ⟨loc0, hloc0⟩ : ∃ f : ℕ → Option (ℕ × ℕ), f = leafLoc leaves := ⟨_, rfl⟩
  have hl0 : ∀ r, IsLeaf g root r → ∃ i, loc0 r = some (i, 0) ∧ leaves[i]? = some r := by
    intro r hr
    rw [hloc0]
    exact assign_leaf ((hlv r).2 hr)
  have hbase : Inv g ρ θ cls classes post root hgt x0 loc0 0 ⟨loc0, [leaves.length], 0, 0, 0, []⟩ fun x => [x0 x] := by
    constructor
    · rfl
    · intro r hr hle
      have hl : g.parts r = [] := by
        by_contra hne
        obtain ⟨c, hc, e⟩ := ((hH r hr).2 hne).2
        omega
      obtain ⟨i, e, hi⟩ := hl0 r ⟨(hreach r).1 hr, hl⟩
      exact ⟨(i, 0), e, by show 0 < 1; decide, (List.getElem?_eq_some_iff.1 hi).1⟩
    · intro x
      refine ⟨by simp [run, pure, Except.pure], rfl, ?_⟩
      intro i hi
      have : i = 0 := by simpa using hi
      subst this
      exact (hx0 x).2
    · intro _ x t ht
      rw [List.mem_singleton.1 ht]
      exact (hx0 x).1
    · intro _ _ _ _
      rfl
    · intro r hr hne hle
      obtain ⟨c, hc, e⟩ := ((hH r hr).2 hne).2
      omega
    · simp
    · intro _ h
      omega
  have hfold : ∀ n, n ≤ hgt root → ∃ st outs,
      (List.range' 1 n).foldlM (level g cls ρ.K classes (hgt root) post (fun r => if r ∈ post then some (hgt r) else none))
        ⟨loc0, [leaves.length], 0, 0, 0, []⟩ = .ok st ∧ (n = 0 → outs = fun x => [x0 x]) ∧
        Inv g ρ θ cls classes post root hgt x0 loc0 n st outs := by
    intro n
    induction n with
    | zero => exact fun _ => ⟨_, _, rfl, fun _ => rfl, hbase⟩
    | succ n ih =>
      intro hle
      obtain ⟨st, outs, h1, _, h2⟩ := ih (by omega)
      obtain ⟨st', outs', h3, h4⟩ := inv_step hρ hK hnd hroot hcl hH hmax (by omega) h2
      refine ⟨st', outs', ?_, fun h => by omega, h4⟩
      rw [List.range'_concat, List.foldlM_append, h1]
      simp only [List.foldlM_cons, List.foldlM_nil, bind_pure]
      rw [show 1 + 1 * n = n + 1 by omega]
      exact h3
  obtain ⟨st, outs, h1, h0, h2⟩ := hfold (hgt root) le_rfl
  refine ⟨st, outs, hgt, ?_, hH, hreach, ?_, ?_, by rw [← hloc0]; exact h2⟩
  · unfold build
    rw [hh]
    dsimp only
    rw [maxHeight_eq hroot fun r hr => (hmax r hr).1, ← hloc0]
    exact h1
  · intro r hr
    obtain ⟨i, e, hi⟩ := hl0 r hr
    refine ⟨i, hi, fun x k => ?_⟩
    rw [h2.leaf r ((hreach r).2 hr.1) hr.2 x, e]
    rfl
  · intro hl
    exact h0 ((hH root hroot).1 hl)

/-! ### The constructor -/

theorem mem_leaves {g : RG} {U : Finset ℕ} {root fuel : ℕ} (hP : Proper g U root fuel) {post : List ℕ}
    (hpost : postOrder g.children fuel root = some post) (r : ℕ) :
    r ∈ post.filter (fun r => (g.parts r).isEmpty) ↔ IsLeaf g root r := by
  obtain ⟨post', h1, _, hreach, _⟩ := C05_post_order g.children U hP.closed root hP.root fuel hP.fuel
  rw [hpost] at h1
  have e : post = post' := by simpa using h1
  subst e
  rw [List.mem_filter, hreach, List.isEmpty_iff]
  rfl

open Classical in
/-- **C82, constructor.** On a proper region graph and a non-empty quadrature rule the constructor accepts exactly the
arguments listed here, and raises the listed error otherwise. The stored leaf variables are the variables of the leaf
regions, in ascending order. -/
theorem C82_constructor (ρ : Rule) (cfg : Config) {g : RG} {U : Finset ℕ} {root fuel : ℕ} (hP : Proper g U root fuel)
    (hK : 0 < ρ.K) :
    ∃ m : Model, m.ρ = ρ ∧ m.cfg = cfg ∧ m.leafVars.Pairwise (· ≤ ·) ∧
      (∀ v, v ∈ m.leafVars ↔ ∃ r, IsLeaf g root r ∧ v = varOf g r) ∧
      construct ρ cfg g fuel root =
        if ρ.pointsDim ≠ 1 ∨ ρ.weightsDim ≠ 1 ∨ ρ.K ≠ ρ.weightsLen then .error .shapeError
        else if cfg.nChunks ≤ 0 ∨ (cfg.leafType = .categorical ∧ ∀ c ∈ cfg.numCategories, c ≤ 1) ∨ cfg.numClasses ≤ 0 then
          .error .invalidParameter
        else if ∃ r, IsLeaf g root r ∧ (g.scope r).query.length ≠ 1 then .error .structureError
        else if cfg.leafType = .other then .error .keyError
        else if cfg.sharingOk = false ∨ cfg.ffDim.getD cfg.netDim % 2 = 1 then .error .invalidParameter
        else .ok m := by
  obtain ⟨post, hpost, _, _, _⟩ := C05_post_order g.children U hP.closed root hP.root fuel hP.fuel
  obtain ⟨leaves, hlv⟩ : ∃ l, l = (post.filter fun r => (g.parts r).isEmpty).insertionSort
    fun a b => varOf g a ≤ varOf g b := ⟨_, rfl⟩
  have hmem : ∀ r, r ∈ leaves ↔ IsLeaf g root r := fun r => by
    rw [hlv, List.mem_insertionSort]; exact mem_leaves hP hpost r
  obtain ⟨st, _, _, hb, _⟩ := build_ok hP hpost (ρ := { ρ with wt := fun _ => 1 }) (fun _ _ => one_pos) hK
    ⟨fun _ _ _ => 0, fun _ _ _ => 0, fun _ _ _ _ => 0⟩ cfg.cls cfg.numClasses.toNat hmem
    (fun _ => ⟨ρ.K, List.replicate leaves.length 0⟩) fun _ => ⟨rfl, by simp⟩
  refine ⟨⟨ρ, cfg, leaves.map (varOf g), st⟩, rfl, rfl, ?_, ?_, ?_⟩
  · rw [List.pairwise_map, hlv]
    have : Std.Total fun a b : ℕ => varOf g a ≤ varOf g b := ⟨fun a b => le_total _ _⟩
    have : IsTrans ℕ fun a b => varOf g a ≤ varOf g b := ⟨fun a b c => le_trans⟩
    exact List.pairwise_insertionSort _ _
  · intro v
    simp only [List.mem_map, hmem]
    exact ⟨fun ⟨r, h, e⟩ => ⟨r, h, e.symm⟩, fun ⟨r, h, e⟩ => ⟨r, h, e.symm⟩⟩
  · have hany : ((post.filter fun r => (g.parts r).isEmpty).any fun r => decide ((g.scope r).query.length ≠ 1)) = true ↔
        ∃ r, IsLeaf g root r ∧ (g.scope r).query.length ≠ 1 := by
      rw [List.any_eq_true]
      simp only [mem_leaves hP hpost, decide_eq_true_eq]
    have hcat : (cfg.numCategories.all fun c => decide (c ≤ 1)) = true ↔ ∀ c ∈ cfg.numCategories, c ≤ 1 := by
      cases cfg.numCategories <;> simp
    unfold construct
    rw [hpost]
    dsimp only at hb ⊢
    rw [← hlv, hb]
    dsimp only
    simp only [hany, hcat]
    by_cases h1 : ρ.pointsDim ≠ 1 ∨ ρ.weightsDim ≠ 1
    · rw [if_pos h1, if_pos (by tauto)]
    by_cases h2 : ρ.K ≠ ρ.weightsLen
    · rw [if_neg h1, if_pos h2, if_pos (by tauto)]
    rw [if_neg h1, if_neg h2, if_neg (by tauto : ¬(ρ.pointsDim ≠ 1 ∨ ρ.weightsDim ≠ 1 ∨ ρ.K ≠ ρ.weightsLen))]
    by_cases h3 : cfg.nChunks ≤ 0
    · rw [if_pos h3, if_pos (.inl h3)]
    by_cases h4 : cfg.leafType = .categorical ∧ ∀ c ∈ cfg.numCategories, c ≤ 1
    · rw [if_neg h3, if_pos h4, if_pos (.inr (.inl h4))]
    by_cases h5 : cfg.numClasses ≤ 0
    · rw [if_neg h3, if_neg h4, if_pos h5, if_pos (.inr (.inr h5))]
    rw [if_neg h3, if_neg h4, if_neg h5, if_neg (by tauto :
      ¬(cfg.nChunks ≤ 0 ∨ (cfg.leafType = .categorical ∧ ∀ c ∈ cfg.numCategories, c ≤ 1) ∨ cfg.numClasses ≤ 0))]
    by_cases h6 : ∃ r, IsLeaf g root r ∧ (g.scope r).query.length ≠ 1
    · rw [if_pos h6, if_pos h6]
    rw [if_neg h6, if_neg h6]
    by_cases h7 : cfg.leafType = .other
    · rw [if_pos h7, if_pos h7]
    rw [if_neg h7, if_neg h7]
    by_cases h8 : cfg.sharingOk = false
    · rw [if_pos h8, if_pos (.inl h8)]
    rw [if_neg h8]
    by_cases h9 : cfg.ffDim.getD cfg.netDim % 2 = 1
    · rw [if_pos (by omega), if_pos (.inr h9)]
    · rw [if_neg (by omega), if_neg (by tauto)]

end Verif.Qpc

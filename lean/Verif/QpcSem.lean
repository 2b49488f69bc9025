import Verif.QpcProps
/-
C82: `log_likelihood` is the logarithm of the circuit of the region graph; when it fails.
-/
namespace Verif.Qpc
open Finset Graph

theorem construct_inv {ρ : Rule} {cfg : Config} {g : RG} {U : Finset ℕ} {root fuel : ℕ} (hP : Proper g U root fuel)
    {m : Model} (h : construct ρ cfg g fuel root = .ok m) :
    ∃ post leaves, postOrder g.children fuel root = some post ∧ (∀ r, r ∈ leaves ↔ IsLeaf g root r) ∧ leaves.Nodup ∧
      build g cfg.cls ρ.K cfg.numClasses.toNat post leaves = .ok m.st ∧ m.leafVars = leaves.map (varOf g) ∧ m.ρ = ρ ∧
      m.cfg = cfg ∧ (∀ r, IsLeaf g root r → (g.scope r).query.length = 1) ∧ cfg.leafType ≠ .other ∧ 0 < cfg.numClasses ∧
      (cfg.leafType = .categorical → ∃ c ∈ cfg.numCategories, 1 < c) := by
  obtain ⟨post, hpost, hnd, _, _⟩ := C05_post_order g.children U hP.closed root hP.root fuel hP.fuel
  unfold construct at h
  rw [hpost] at h
  dsimp only at h
  split at h
  · simp at h
  split at h
  · simp at h
  split at h
  · simp at h
  split at h
  · simp at h
  split at h
  · simp at h
  split at h
  · simp at h
  rename_i h4 h5 h6
  split at h
  · simp at h
  rename_i st hb
  split at h
  · simp at h
  rename_i h7
  split at h
  · simp at h
  split at h
  · simp at h
  simp only [Except.ok.injEq] at h
  subst h
  refine ⟨post, _, hpost, fun r => by rw [List.mem_insertionSort]; exact mem_leaves hP hpost r,
    (List.perm_insertionSort _ _).nodup_iff.2 (hnd.filter _), hb, rfl, rfl, rfl, ?_, h7, by omega, ?_⟩
  · intro r hr
    have hr' := (mem_leaves hP hpost r).2 hr
    by_contra hne
    exact h6 (List.any_eq_true.2 ⟨r, hr', by simpa using hne⟩)
  · intro hc
    by_contra hno
    refine h4 ⟨hc, ?_⟩
    cases hn : cfg.numCategories with
    | none => rfl
    | some c =>
      simp only [Option.all_some, decide_eq_true_eq]
      by_contra hlt
      exact hno ⟨c, by rw [hn]; rfl, by omega⟩

theorem leafLayer_get {m : Model} {θ : Params} {x : Var → ℝ} {i : ℕ} {v : Var} (h : m.leafVars[i]? = some v) (k : ℕ) :
    (leafLayer m θ x).folds.getD i 0 k = leafLL m.cfg (θ.leaf i (m.ρ.pt k)) (x v) := by
  unfold leafLayer
  dsimp only
  rw [zipIdx_map_getD h]

/-- **C82, semantics.** Whatever region graph, quadrature rule with positive weights, network outputs and mixing logits:
`log_likelihood` returns the logarithm of the value `V root 0` of the circuit of the region graph, in which unit `k` of a
leaf region is its leaf density at the `k`-th quadrature point (every leaf region has its own position among the
leaves) and every unit of an inner region is a mixture, over its partitions, of weighted sums of products (full tensor)
or products of weighted sums of the units of the parts, with non-negative normalised weights. Neither the folding of
regions of equal height into one tensor nor the padding and masking shows. -/
theorem C82_semantics {ρ : Rule} {cfg : Config} {g : RG} {U : Finset ℕ} {root fuel : ℕ} (hP : Proper g U root fuel)
    (hK : 0 < ρ.K) (hρ : ρ.Pos) {m : Model} (hm : construct ρ cfg g fuel root = .ok m) (θ : Params)
    (h1 : cfg.numClasses = 1) (hroot : g.parts root ≠ [] ∨ ρ.K = 1) :
    ∃ (V : ℕ → ℕ → (Var → ℝ) → ℝ) (hgt pos : ℕ → ℕ),
      (∀ r, Reach g.children root r → (g.parts r = [] → hgt r = 0) ∧
        (g.parts r ≠ [] → (∀ c ∈ g.children r, hgt c < hgt r) ∧ ∃ c ∈ g.children r, hgt r = hgt c + 1)) ∧
      (∀ r, IsLeaf g root r → m.leafVars[pos r]? = some (varOf g r) ∧
        (∀ r', IsLeaf g root r' → pos r = pos r' → r = r') ∧
        ∀ k x, V r k x = Real.exp (leafLL cfg (θ.leaf (pos r) (ρ.pt k)) (x (varOf g r)))) ∧
      (∀ r, Reach g.children root r → g.parts r ≠ [] → ∀ u, ∃ t, (t = true ↔ cfg.cls ≠ .cp ∧
          ∀ r', Reach g.children root r' → hgt r' = hgt r → ∀ p ∈ g.parts r', p.length = 2) ∧
        RegionForm g t ρ.K V r u) ∧
      ∀ x, logLik m θ x = .ok (Real.log (V root 0 x)) := by
  obtain ⟨post, leaves, hpost, hlv, hln, hb, hvars, hmρ, hmc, _, _, _, _⟩ := construct_inv hP hm
  obtain ⟨st, outs, hgt, hb', hH, hreach, hleaf, hrl, hI⟩ := build_ok hP hpost hρ hK θ cfg.cls cfg.numClasses.toNat hlv
    (leafLayer m θ) fun x => ⟨by rw [← hmρ]; rfl, by simp [leafLayer, hvars]⟩
  rw [hb] at hb'
  have hst : m.st = st := by simpa using hb'
  have hpos : ∀ r, ∃ i, IsLeaf g root r → leaves[i]? = some r ∧
      ∀ x k, at' (outs x) ((st.loc r).getD (0, 0)) k = (leafLayer m θ x).folds.getD i 0 k := by
    intro r
    by_cases h : IsLeaf g root r
    · obtain ⟨i, h1, h2⟩ := hleaf r h
      exact ⟨i, fun _ => ⟨h1, h2⟩⟩
    · exact ⟨0, fun h' => absurd h' h⟩
  choose pos hpos using hpos
  have hvi : ∀ r, IsLeaf g root r → m.leafVars[pos r]? = some (varOf g r) := by
    intro r hr
    rw [hvars, List.getElem?_map, (hpos r hr).1]
    rfl
  refine ⟨fun r k x => Real.exp (at' (outs x) ((st.loc r).getD (0, 0)) k), hgt, pos,
    fun r hr => hH r ((hreach r).2 hr), ?_, ?_, ?_⟩
  · intro r hr
    refine ⟨hvi r hr, fun r' hr' e => ?_, fun k x => ?_⟩
    · have a := (hpos r hr).1
      rw [e, (hpos r' hr').1] at a
      simpa using a.symm
    · dsimp only
      rw [(hpos r hr).2 x k, leafLayer_get (hvi r hr) k, hmc, hmρ]
  · intro r hr hne u
    obtain ⟨t, ht, hf⟩ := hI.region r ((hreach r).2 hr) hne
      (height_root hH hreach r ((hreach r).2 hr)).1 u
    refine ⟨t, ?_, hf⟩
    rw [ht]
    unfold TensorAt
    exact and_congr_right fun _ => ⟨fun h r' h1 => h r' ((hreach r').2 h1), fun h r' h1 => h r' ((hreach r').1 h1)⟩
  · intro x
    have hrm : root ∈ post := (hreach root).2 Relation.ReflTransGen.refl
    have hc1 : cfg.numClasses.toNat = 1 := by rw [h1]; rfl
    unfold logLik
    rw [hst, hmρ, hI.view, if_neg (by rw [hc1]; simp), (hI.runs x).1]
    dsimp only
    rw [Real.log_exp, hmc]
    by_cases hr0 : g.parts root = []
    · have hK1 : ρ.K = 1 := hroot.resolve_left fun h => h hr0
      have hL : IsLeaf g root root := ⟨Relation.ReflTransGen.refl, hr0⟩
      have hpl : post = [root] := by
        have hall : ∀ r ∈ post, r = root := by
          intro r hr
          refine (height_root hH hreach r hr).2 ?_
          have := (height_root hH hreach r hr).1
          have := (hH root hrm).1 hr0
          omega
        have hlall : ∀ r ∈ leaves, r = root := fun r hr => hall r ((hreach r).2 ((hlv r).1 hr).1)
        obtain ⟨post', h1', hnd, _, _⟩ := C05_post_order g.children U hP.closed root hP.root fuel hP.fuel
        rw [hpost] at h1'
        have e : post = post' := by simpa using h1'
        rw [← e] at hnd
        cases hp : post with
        | nil => rw [hp] at hrm; simp at hrm
        | cons a l =>
          rw [hp] at hall hnd
          have ha := hall a (by simp)
          cases l with
          | nil => rw [ha]
          | cons b l =>
            exfalso
            have hb := hall b (by simp)
            simp [ha, hb] at hnd
      have hleaves : leaves = [root] := by
        have hlall : ∀ r ∈ leaves, r = root := fun r hr => by
          have := (hreach r).2 ((hlv r).1 hr).1
          rw [hpl] at this
          simpa using this
        have hrl : root ∈ leaves := (hlv root).2 hL
        cases hp : leaves with
        | nil => rw [hp] at hrl; simp at hrl
        | cons a l =>
          rw [hp] at hlall hln
          have ha := hlall a (by simp)
          cases l with
          | nil => rw [ha]
          | cons b l =>
            exfalso
            have hb := hlall b (by simp)
            simp [ha, hb] at hln
      have hp0 : pos root = 0 := by
        have := (hpos root hL).1
        rw [hleaves] at this
        have := (List.getElem?_eq_some_iff.1 this).1
        simpa using this
      have hv0 : m.leafVars = [varOf g root] := by rw [hvars, hleaves]; rfl
      rw [(hpos root hL).2 x 0, hp0, hrl hr0]
      simp [leafLayer, hv0, hmρ, hK1, h1]
    · have hh0 : 0 < hgt root := by
        obtain ⟨c, _, e⟩ := ((hH root hrm).2 hr0).2
        omega
      obtain ⟨hloc, hl⟩ := hI.last rfl hh0
      obtain ⟨t, ht, hu, hf⟩ := hl x
      rw [ht]
      dsimp only
      obtain ⟨v, hv⟩ := List.length_eq_one_iff.1 hf
      rw [hv]
      dsimp only
      rw [hu, hc1, h1, hloc]
      have hlen := (hI.runs x).2.1
      have : at' (outs x) ((some (0, st.cur)).getD (0, 0)) = v := by
        rw [Option.getD_some]
        unfold at'
        rw [List.getLast?_eq_getElem?, hlen, hI.cur, Nat.add_sub_cancel] at ht
        dsimp only
        have e2 : (outs x).getD st.cur ⟨0, []⟩ = t := by rw [List.getD_eq_getElem?_getD, ht]; rfl
        rw [e2, hv]
        rfl
      rw [this]
      simp

/-- **C82, failures.** The other configurations that the constructor accepts never give a likelihood: more than one class,
or a region graph of a single region with a rule of several points. -/
theorem C82_fails {ρ : Rule} {cfg : Config} {g : RG} {U : Finset ℕ} {root fuel : ℕ} (hP : Proper g U root fuel)
    (hK : 0 < ρ.K) (hρ : ρ.Pos) {m : Model} (hm : construct ρ cfg g fuel root = .ok m) (θ : Params)
    (h : cfg.numClasses ≠ 1 ∨ (g.parts root = [] ∧ ρ.K ≠ 1)) (x : Var → ℝ) :
    logLik m θ x = .error (if cfg.numClasses = ρ.K then .notImplemented
      else if g.parts root = [] then .shapeError else .runtimeError) := by
  obtain ⟨post, leaves, hpost, hlv, hln, hb, hvars, hmρ, hmc, _, _, hpc, _⟩ := construct_inv hP hm
  obtain ⟨st, outs, hgt, hb', hH, hreach, hleaf, hrl, hI⟩ := build_ok hP hpost hρ hK θ cfg.cls cfg.numClasses.toNat hlv
    (leafLayer m θ) fun x => ⟨by rw [← hmρ]; rfl, by simp [leafLayer, hvars]⟩
  rw [hb] at hb'
  have hst : m.st = st := by simpa using hb'
  have hrm : root ∈ post := (hreach root).2 Relation.ReflTransGen.refl
  unfold logLik
  rw [hst, hmρ, hI.view]
  by_cases hr0 : g.parts root = []
  · have hg0 := (hH root hrm).1 hr0
    rw [if_neg (by simp [hg0]), (hI.runs x).1]
    have hall : ∀ r ∈ leaves, r = root := by
      intro r hr
      have hr' := (hreach r).2 ((hlv r).1 hr).1
      refine (height_root hH hreach r hr').2 ?_
      have := (height_root hH hreach r hr').1
      omega
    have hleaves : leaves = [root] := by
      have hrl : root ∈ leaves := (hlv root).2 ⟨Relation.ReflTransGen.refl, hr0⟩
      cases hp : leaves with
      | nil => rw [hp] at hrl; simp at hrl
      | cons a l =>
        rw [hp] at hall hln
        have ha := hall a (by simp)
        cases l with
        | nil => rw [ha]
        | cons b l =>
          exfalso
          have hb := hall b (by simp)
          simp [ha, hb] at hln
    have hv0 : m.leafVars = [varOf g root] := by rw [hvars, hleaves]; rfl
    rw [hrl hr0, hmc]
    simp only [leafLayer, hv0, hmρ, List.getLast?_singleton]
    simp only [List.zipIdx_cons, List.zipIdx_nil, List.map_cons, List.map_nil, hr0, if_true]
    by_cases he : cfg.numClasses = ρ.K
    · rw [if_neg (by simp [he]), if_pos he, if_pos]
      rcases h with h | h
      · exact h
      · rw [he]
        exact_mod_cast h.2
    · rw [if_pos (fun e => he e.symm), if_neg he]
  · have hn1 : cfg.numClasses ≠ 1 := by
      rcases h with h | h
      · exact h
      · exact absurd h.1 hr0
    have hh0 : 0 < hgt root := by
      obtain ⟨c, _, e⟩ := ((hH root hrm).2 hr0).2
      omega
    by_cases he : cfg.numClasses = ρ.K
    · have hc : cfg.numClasses.toNat = ρ.K := by omega
      rw [if_neg (by rw [hc]; simp), (hI.runs x).1, if_pos he]
      dsimp only
      obtain ⟨t, ht, hu, hf⟩ := (hI.last rfl hh0).2 x
      rw [ht]
      dsimp only
      obtain ⟨v, hv⟩ := List.length_eq_one_iff.1 hf
      rw [hv]
      dsimp only
      rw [hu, hc, hmc, if_neg (by simp [he]), if_pos hn1]
    · rw [if_pos (decide_eq_true ⟨rfl, hh0, by omega, by omega⟩), if_neg he, if_neg hr0]

end Verif.Qpc

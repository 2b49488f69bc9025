import Verif.HcltProps
import Verif.CNetProps

/-!
C70: hidden Chow-Liu trees, main theorems.
-/

namespace Verif.Hclt

open Finset MeasureTheory Verif.Circ
open Verif.Span (Edge Adj IsSpanningTree)
open Verif.LP (Mod)
open Verif.LP.Mod (Good likelihood)

variable {n : ℕ} {μ : Var → Measure ℝ}

/-! ### Specification: the latent tree model -/

/-- Probability of the value of variable `v` (1 if it is missing) given hidden state `z`. -/
noncomputable def emit (em : Fin n → ℕ → ℝ → LogV) (x : Row) (v : Fin n) (z : ℕ) : ℝ := expL (cellVal (em v z) (x ((v : ℕ) : ℤ)))

/-- A hidden Chow-Liu tree: hidden states `ζ v < H`, the root drawn from `prior`, every other node from `tr v · (state of
its parent)`, and every observed variable from its emission. -/
noncomputable def latentTree (par : Fin n → Option (Fin n)) (r : Fin n) (H : ℕ) (prior : ℕ → ℝ) (tr : Fin n → ℕ → ℕ → ℝ)
    (e : Fin n → ℕ → ℝ) : ℝ :=
  ∑ ζ ∈ states n H, prior (ζ r) * (∏ v ∈ univ.erase r, tr v (ζ v) (parState par ζ v)) * ∏ v, e v (ζ v)

/-- The transition probabilities of logits `θ` with `Co` channels: with a single channel the state of the parent is not
used. -/
noncomputable def transProb (H Co : ℕ) (θ : Fin n → ℕ → ℕ → LogV) (v : Fin n) (z z' : ℕ) : ℝ :=
  softmax H (fun i => θ v i (if Co = 1 then 0 else z')) z

/-! ### Value -/

section value

variable {edges : List (Edge n)} {r : Fin n} {par : Fin n → Option (Fin n)} {d : Fin n → ℕ} {H Co : ℕ}
  {em : Fin n → ℕ → ℝ → LogV} {θ : Fin n → ℕ → ℕ → LogV}

theorem val_leafOf (x : Row) (v : Fin n) (z : ℕ) : Mod.val (leafOf H em v) 0 x 0 z = cellVal (em v z) (x ((v : ℕ) : ℤ)) := by
  unfold leafOf
  rw [Mod.val]
  exact featAt_leaf (q := [((v : ℕ) : ℤ)]) (f := 0) (v := ((v : ℕ) : ℤ)) rfl x 0 z

theorem val_list (l : List Mod) (x : Row) (z : ℕ) : Mod.val (.mul false l.length l.get) 0 x 0 z =
    (l.map fun m => Mod.val m 0 x 0 (if m.C = 1 then 0 else z)).sum := by
  rw [Mod.val]
  exact congrArg List.sum (Mod.ofFn_get_map l fun m => Mod.val m 0 x 0 (if m.C = 1 then 0 else z))

theorem val_joined {e : Mod} (msgs : List Mod) (x : Row) {z : ℕ} (hz : z < e.C) : expL (Mod.val (joined e msgs) 0 x 0 z) =
    expL (Mod.val e 0 x 0 z) * (msgs.map fun m => expL (Mod.val m 0 x 0 (if m.C = 1 then 0 else z))).prod := by
  unfold joined
  split_ifs with h
  · rw [List.isEmpty_iff.1 h]; simp
  · have : (if e.C = 1 then 0 else z) = z := by split_ifs <;> omega
    rw [val_list, Build.expL_list_sum, List.map_cons, List.map_cons, List.prod_cons, this, List.map_map]
    rfl

theorem net_C (hT : TreeList edges) (h : Rooted edges.toFinset r par d) (hH : 1 ≤ H) (hw : Width H Co) (hem : EmOk μ H em)
    (hθ : Usable H Co θ) {N : ℕ} (hN : ∀ v, d v < N) (v : Fin n) :
    SubOk μ H (Below par v) (net (fun v => edges.flatMap (ends v)) H Co em θ (N - d v) v (par v)) :=
  sub_ok hT h hH hw hem hθ _ v fun w _ => by have := hN w; have := hN v; omega

theorem net_value (hT : TreeList edges) (h : Rooted edges.toFinset r par d) (hH : 1 ≤ H) (hw : Width H Co) (hem : EmOk μ H em)
    (hθ : Usable H Co θ) {N : ℕ} (hN : ∀ v, d v < N) (x : Row) (v : Fin n) {z : ℕ} (hz : z < H) :
    expL (Mod.val (net (fun v => edges.flatMap (ends v)) H Co em θ (N - d v) v (par v)) 0 x 0 z) =
      emit em x v z * ∏ u ∈ univ.filter (fun u => par u = some v), ∑ z' ∈ range H, transProb H Co θ u z' z *
        expL (Mod.val (net (fun v => edges.flatMap (ends v)) H Co em θ (N - d u) u (par u)) 0 x 0 z') := by
  classical
  obtain ⟨k, hk⟩ : ∃ k, N - d v = k + 1 := ⟨N - d v - 1, by have := hN v; omega⟩
  obtain ⟨hnd, hmem⟩ := children_spec hT h v
  rw [hk, net_succ, val_joined _ _ hz, val_leafOf, List.map_map]
  congr 1
  have hset : univ.filter (fun u => par u = some v) = (kids edges par v).toFinset := by
    ext u; rw [List.mem_toFinset, hmem u]; simp
  rw [hset, List.prod_toFinset _ hnd]
  congr 1
  refine List.map_congr_left fun u hu => ?_
  have hp := (hmem u).1 hu
  have hdu := h.depth u v hp
  have hku : N - d u = k := by omega
  have hC := (net_C hT h hH hw hem hθ hN u).CH
  rw [hku, hp] at hC
  rw [hku, hp]
  show expL (Mod.val (.sum _ _ _ _) _ _ _ _) = _
  rw [Mod.expL_val_sum, hC]
  rfl

/-- **C70 (density).** For every spanning tree, every parent function that hangs it up at `r`, all emissions and all
logits: the circuit's likelihood is that of the latent tree model - the sum over all hidden states of prior, transitions
and emissions.  Missing values are summed out (`emit` is then 1). -/
theorem C70_density (hT : TreeList edges) (h : Rooted edges.toFinset r par d) (hH : 1 ≤ H) (hw : Width H Co)
    (hem : EmOk μ H em) (hθ : Usable H Co θ) {fuel : ℕ} (hf : ∀ v, d v < fuel) (π : ℕ → LogV) (x : Row) :
    Mod.likelihood (hclt fuel edges r H Co em θ π) x =
      latentTree par r H (softmax H π) (transProb H Co θ) (emit em x) := by
  classical
  have hdr : d r = 0 := h.zero
  have hS := net_C hT h hH hw hem hθ hf r
  rw [hdr, Nat.sub_zero, h.root] at hS
  unfold Mod.likelihood
  have hF : (hclt fuel edges r H Co em θ π).F = 1 := hS.F1
  rw [hF, prod_range_one]
  unfold hclt
  rw [Mod.expL_val_sum, hS.CH]
  set M : Fin n → ℕ → ℝ := fun v z =>
    expL (Mod.val (net (fun v => edges.flatMap (ends v)) H Co em θ (fuel - d v) v (par v)) 0 x 0 z) with hM
  set A : Fin n → ℕ → ℕ → ℝ := fun v z z' => if v = r then softmax H π z else transProb H Co θ v z z' with hA
  have key := eliminate h H A (emit em x) M fun v z hz => by
    rw [hM]
    beta_reduce
    rw [net_value hT h hH hw hem hθ hf x v hz]
    congr 1
    refine prod_congr rfl fun u hu => sum_congr rfl fun z' _ => ?_
    have hur : u ≠ r := by
      rintro rfl
      have := (mem_filter.1 hu).2
      rw [h.root] at this
      cases this
    rw [hA]
    beta_reduce
    rw [if_neg hur]
  have e1 : ∑ ci ∈ range H, softmax H (fun i => π i) ci * expL (Mod.val (net (fun v => edges.flatMap (ends v)) H Co em θ fuel r none) 0 x 0 ci) =
      ∑ z ∈ range H, A r z 0 * M r z := by
    refine sum_congr rfl fun z _ => ?_
    rw [hA, hM]
    beta_reduce
    rw [if_pos rfl, hdr, Nat.sub_zero, h.root]
  rw [e1, key]
  unfold latentTree
  refine sum_congr rfl fun ζ _ => ?_
  rw [prod_mul_distrib, ← mul_prod_erase univ _ (mem_univ r)]
  congr 1
  rw [hA]
  beta_reduce
  rw [if_pos rfl]
  congr 1
  refine prod_congr rfl fun v hv => ?_
  rw [if_neg (ne_of_mem_erase hv)]

end value

end Verif.Hclt

import Verif.ListProd
import Verif.Mst

/-!
# Model of the hidden Chow-Liu tree learner

Files modelled: spflow/zoo/hclt/learn.py (and, through `Verif.Mst`, topk_mst.py; the mutual information matrix of mi.py
is a parameter here and the subject of C71).

Simplifications.
* Edges are pairs of `Fin n`, so "Edge indices out of range" (learn.py:25-26) cannot occur.
* Python's recursion limit is the parameter `fuel`: `build_subtree` and the circuit's own methods recurse once per level
  of the tree.
* `Sum(inputs=child)` without `weights` has out_channels=1 (sum.py:52) and draws its weights (sum.py:173-177); the drawn
  weights are a parameter.  The same holds for the random parameters of the emission leaves.
* device and dtype only move tensors.
-/

namespace Verif.Hclt

open Verif.LP (Mod)
open Verif.Span (Edge)
open Verif.Circ (Weights)

variable {n : ℕ}

/-- The neighbours appended to `adj[v]` by one edge, learn.py:29-30. -/
def ends (v : Fin n) (e : Edge n) : List (Fin n) := (if e.1 = v then [e.2] else []) ++ if e.2 = v then [e.1] else []

/-- `_edges_to_adjacency`, learn.py:22-31. -/
def adjacency (edges : List (Edge n)) : Except Exc (Fin n → List (Fin n)) :=
  if edges.any (fun e => e.1 == e.2) then .error .invalidParameter else .ok fun v => edges.flatMap (ends v)

/-- What the constructors draw for one tree: the emission densities of node `v` given hidden state `z`, the weights of the
Sum above the subtree of `v` (only used with `init="random"`), and those of the root Sum. -/
structure Draws (n : ℕ) where
  em : Fin n → ℕ → ℝ → LogV
  trans : Fin n → ℕ → ℝ
  prior : ℕ → ℝ

/-- The weights handed to a transition Sum, learn.py:67-68: uniform of shape (1, H, H, 1), or - with `init="random"` -
whatever `Sum(inputs=child)` draws, of shape (1, H, 1, 1). -/
noncomputable def transWeights (H : ℕ) (uniform : Bool) (D : Draws n) (v : Fin n) : Weights :=
  if uniform then ⟨1, H, H, 1, fun _ _ _ _ => 1 / (H : ℝ)⟩ else ⟨1, H, 1, 1, fun _ ci _ _ => D.trans v ci⟩

/-- The weights of the root Sum, learn.py:77-78. -/
noncomputable def priorWeights (H : ℕ) (uniform : Bool) (D : Draws n) : Weights :=
  ⟨1, H, 1, 1, fun _ ci _ _ => if uniform then 1 / (H : ℝ) else D.prior ci⟩

/-- `emission_factory(v)`, learn.py:131-137 and 212-218: a leaf with scope `[v]` and `H` channels. -/
def emission (H : ℕ) (D : Draws n) (v : Fin n) : Except Exc Mod :=
  match Circ.mkLeaf [((v : ℕ) : ℤ)] H 1 (fun _ ch _ => D.em v ch) with
  | .error e => .error e
  | .ok c => .ok (.base c)

/-- The message of a child: its subtree and the transition Sum above it, learn.py:66-69. -/
noncomputable def message (sub : Fin n → Except Exc Mod) (H : ℕ) (uniform : Bool) (D : Draws n) (u : Fin n) :
    Except Exc Mod := do
  let m ← sub u
  Mod.mkSum [m] (transWeights H uniform D u)

/-- The end of `build_subtree`, learn.py:71-73. -/
def joinMsgs (e : Mod) (msgs : List Mod) : Except Exc Mod := if msgs.isEmpty then .ok e else Mod.mkMul false (e :: msgs)

/-- `build_subtree(node, parent)`, learn.py:58-73; `none` is the parent -1 of the root. -/
noncomputable def subtree (adj : Fin n → List (Fin n)) (H : ℕ) (uniform : Bool) (D : Draws n) :
    ℕ → Fin n → Option (Fin n) → Except Exc Mod
  | 0, _, _ => .error .recursionError
  | k + 1, v, p => do
    let e ← emission H D v
    let msgs ← ((adj v).filter fun u => decide (p ≠ some u)).mapM
      (message (fun u => subtree adj H uniform D k u (some v)) H uniform D)
    joinMsgs e msgs

/-- `_build_hclt_from_tree`, learn.py:34-79. -/
noncomputable def buildTree (fuel : ℕ) (edges : List (Edge n)) (H : ℕ) (uniform : Bool) (D : Draws n) : Except Exc Mod := do
  if H < 1 then throw .invalidParameter
  if edges.length + 1 ≠ n then throw .invalidParameter
  let adj ← adjacency edges
  if h : 0 < n then do
    let m ← subtree adj H uniform D fuel ⟨0, h⟩ none
    Mod.mkSum [m] (priorWeights H uniform D)
  else throw .invalidParameter

/-- The weights of the mixture over trees, learn.py:151-159. -/
noncomputable def mixWeights (k : ℕ) (uniform : Bool) (mix : ℕ → ℝ) : Weights :=
  ⟨1, k, 1, 1, fun _ ci _ _ => if uniform then 1 / (k : ℝ) else mix ci⟩

/-- One circuit per tree; `D i` is what is drawn for the i-th tree, learn.py:139-150. -/
noncomputable def buildAll (fuel : ℕ) (H : ℕ) (uniform : Bool) (D : ℕ → Draws n) : ℕ → List (List (Edge n)) → Except Exc (List Mod)
  | _, [] => .ok []
  | i, t :: ts => do
    let m ← buildTree fuel t H uniform (D i)
    let ms ← buildAll fuel H uniform D (i + 1) ts
    return m :: ms

/-- The end of `learn_hclt_binary`, learn.py:152-162: one tree is returned as it is, several are mixed. -/
noncomputable def mixAll (ms : List Mod) (uniform : Bool) (mix : ℕ → ℝ) : Except Exc Mod :=
  match ms with
  | [m] => .ok m
  | ms => Mod.mkSum ms (mixWeights ms.length uniform mix)

/-- `learn_hclt_binary` / `learn_hclt_categorical` after the mutual information has been computed: learn.py:118-162 and
195-236 with chow_liu.py:39-45.  `mi` is the mutual information matrix, `pick` the tie breaking of the heap
(`Verif.Mst.topk`), `dropout_prob = 0`. -/
noncomputable def learn (fuel : ℕ) (mi : Edge n → ℝ) (k H : ℕ) (uniform : Bool) (pick : List (Mst.Entry n) → ℕ)
    (D : ℕ → Draws n) (mix : ℕ → ℝ) : Except Exc Mod := do
  if k < 1 then throw .invalidParameter
  let trees ← Mst.topk (fun e => - mi e) k true pick
  let ms ← buildAll fuel H uniform D 0 trees
  mixAll ms uniform mix

end Verif.Hclt

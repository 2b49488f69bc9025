import Verif.SpanTree
import Verif.Scope
import Verif.LogSpace
import Mathlib.Data.List.Sort
import Mathlib.Data.Prod.Lex
import Mathlib.Data.EReal.Basic
import Mathlib.Data.EReal.Operations
import Mathlib.Data.List.FinRange

/-!
# Model of the spanning tree algorithms

spflow/zoo/hclt/topk_mst.py (union-find, Kruskal, constrained trees, top-k enumeration) and
`_prim_maximum_spanning_tree`, spflow/modules/leaves/cltree.py:81-126.
Weights are exact reals (NaN is rejected at topk_mst.py:67-68; infinite input weights are not modelled).
-/

namespace Verif.Mst

open Verif.Span

/-! ## Union-find -/

/-- `_UnionFind`, topk_mst.py:28-35. -/
structure UF (n : ℕ) where
  parent : Fin n → Fin n
  rank : Fin n → ℕ

variable {n : ℕ}

/-- `_UnionFind.create`. -/
def UF.create (n : ℕ) : UF n := ⟨id, fun _ => 0⟩

/-- `find` with path halving, topk_mst.py:37-41; `fuel` bounds the `while` loop (C26 shows that `n` iterations suffice). -/
def UF.find : ℕ → UF n → Fin n → UF n × Fin n
  | 0, u, x => (u, x)
  | k + 1, u, x =>
    if u.parent x = x then (u, x)
    else
      let u' : UF n := { u with parent := Function.update u.parent x (u.parent (u.parent x)) }
      UF.find k u' (u'.parent x)

/-- `union`, topk_mst.py:43-55. -/
def UF.union (u : UF n) (a b : Fin n) : UF n × Bool :=
  let r1 := u.find n a
  let r2 := r1.1.find n b
  let ra := r1.2
  let rb := r2.2
  let v := r2.1
  if ra = rb then (v, false)
  else if v.rank ra < v.rank rb then ({ v with parent := Function.update v.parent ra rb }, true)
  else if v.rank rb < v.rank ra then ({ v with parent := Function.update v.parent rb ra }, true)
  else (⟨Function.update v.parent rb ra, Function.update v.rank ra (v.rank ra + 1)⟩, true)

/-! ## Kruskal -/

/-- `np.triu_indices(n, k=1)`, topk_mst.py:70. -/
def triu (n : ℕ) : List (Edge n) :=
  (List.finRange n).flatMap fun i => ((List.finRange n).filter fun j => i < j).map fun j => (i, j)

open Classical in
/-- `np.lexsort((jj, ii, w))` or `np.lexsort((jj, ii, -w))`, topk_mst.py:74-77. -/
noncomputable def order (n : ℕ) (w : Edge n → EReal) (minimize : Bool) : List (Edge n) :=
  let key : Edge n → EReal := fun e => if minimize then w e else - w e
  (triu n).insertionSort fun e f => toLex (key e, toLex e) ≤ toLex (key f, toLex f)

/-- The loop at topk_mst.py:79-87. -/
def kruskalLoop : List (Edge n) → UF n → List (Edge n) → List (Edge n)
  | [], _, mst => mst
  | e :: l, u, mst =>
    let r := u.union e.1 e.2
    if r.2 then
      let mst := mst ++ [e]
      if mst.length = n - 1 then mst else kruskalLoop l r.1 mst
    else kruskalLoop l r.1 mst

/-- `_canon_edge`, topk_mst.py:23-25. -/
def canon (e : Edge n) : Edge n := if e.1 ≤ e.2 then e else (e.2, e.1)

/-- `kruskal_mst_complete`, topk_mst.py:58-88. -/
noncomputable def kruskal (n : ℕ) (w : Edge n → EReal) (minimize : Bool) : Except Exc (List (Edge n)) :=
  if n = 0 then .error .invalidParameter
  else .ok ((kruskalLoop (order n w minimize) (UF.create n) []).map canon)

/-- `reuse`, topk_mst.py:107-125 with `dropout_prob = 0`. -/
noncomputable def reuse (w : Edge n → ℝ) (inc exc : List (Edge n)) (e : Edge n) : EReal :=
  if canon e ∈ exc.map canon then ⊤ else if canon e ∈ inc.map canon then ⊥ else (w e : EReal)

/-- `mst_with_constraints`, topk_mst.py:91-138; `none` is `(None, None)`. -/
noncomputable def mstWith (w : Edge n → ℝ) (inc exc : List (Edge n)) (minimize : Bool) :
    Except Exc (Option (List (Edge n) × ℝ)) :=
  match kruskal n (reuse w inc exc) minimize with
  | .error e => .error e
  | .ok mst =>
    if ¬ (inc.map canon).toFinset ⊆ mst.toFinset then .ok none
    else if (mst.toFinset ∩ (exc.map canon).toFinset).Nonempty then .ok none
    else .ok (some (mst, (mst.map w).sum))

/-! ## Top-k enumeration -/

/-- A heap entry, topk_mst.py:177-178. -/
structure Entry (n : ℕ) where
  total : ℝ
  mst : List (Edge n)
  inc : List (Edge n)
  exc : List (Edge n)

/-- The branching loop, topk_mst.py:194-220: the entries pushed for one popped tree. -/
noncomputable def branch (w : Edge n → ℝ) (minimize : Bool) :
    List (Edge n) → List (Edge n) → List (Edge n) → Bool → List (Entry n)
  | [], _, _, _ => []
  | e :: es, inc, exc, added =>
    if e ∈ inc then branch w minimize es inc exc added
    else
      let inc' := if added then inc ++ exc.getLast?.toList else inc
      let exc' := (if added then exc.dropLast else exc) ++ [e]
      (match mstWith w inc' exc' minimize with
        | .ok (some (t, c)) => [⟨c, t, inc', exc'⟩]
        | _ => []) ++ branch w minimize es inc' exc' true

/-- The main loop, topk_mst.py:181-220: `r` trees remain to be produced.  `pick` is the position `heappop` returns
(the entry with least total; ties are broken by the key, which the properties do not need). -/
noncomputable def topkLoop (w : Edge n → ℝ) (minimize : Bool) (pick : List (Entry n) → ℕ) :
    ℕ → List (Entry n) → List (List (Edge n))
  | 0, _ => []
  | r + 1, heap =>
    match heap[pick heap]? with
    | none => []
    | some e =>
      e.mst :: topkLoop w minimize pick r
        (heap.eraseIdx (pick heap) ++ branch w minimize (e.mst.map canon) (e.inc.map canon) (e.exc.map canon) false)

/-- `topk_mst`, topk_mst.py:141-222, with `dropout_prob = 0`. -/
noncomputable def topk (w : Edge n → ℝ) (k : ℕ) (minimize : Bool) (pick : List (Entry n) → ℕ) :
    Except Exc (List (List (Edge n))) :=
  if k < 1 then .error .invalidParameter
  else match mstWith w [] [] minimize with
    | .error e => .error e
    | .ok none => .ok []
    | .ok (some (t, c)) => .ok (topkLoop w minimize pick k [⟨c, t, [], []⟩])

/-! ## Prim -/

/-- State of `_prim_maximum_spanning_tree`, cltree.py:100-110 (`best_w` of `-inf` is `⊥`, parent `-1` is `none`). -/
structure Prim (n : ℕ) where
  inTree : Fin n → Bool
  bestW : Fin n → LogV
  bestP : Fin n → Option (Fin n)
  parents : Fin n → Option (Fin n)

/-- Initialisation, cltree.py:100-110. -/
def prim0 (w : Fin n → Fin n → ℝ) (root : Fin n) : Prim n where
  inTree := Function.update (fun _ => false) root true
  bestW := Function.update (fun u => (w root u : LogV)) root ⊥
  bestP := Function.update (fun _ => some root) root none
  parents := fun _ => none

open Classical in
/-- `torch.argmax` over the nodes (first maximum). -/
noncomputable def argmaxFin (c : Fin n → LogV) : Option (Fin n) :=
  (List.finRange n).find? fun v => (List.finRange n).all fun u => decide (c u ≤ c v)

open Classical in
/-- One iteration, cltree.py:112-123. -/
noncomputable def primStep (w : Fin n → Fin n → ℝ) (s : Prim n) : Except Exc (Prim n) :=
  let cand : Fin n → LogV := fun u => if s.inTree u then ⊥ else s.bestW u
  match argmaxFin cand with
  | none => .error .indexError
  | some v =>
    if cand v = ⊥ then .error .unsupported
    else
      let inTree := Function.update s.inTree v true
      let improved : Fin n → Bool := fun u => !(inTree u) && decide (s.bestW u < (w v u : LogV))
      .ok {
        inTree := inTree
        bestW := fun u => if improved u then (w v u : LogV) else s.bestW u
        bestP := fun u => if improved u then some v else s.bestP u
        parents := Function.update s.parents v (s.bestP v) }

/-- The `for _ in range(num_features - 1)` loop. -/
noncomputable def primLoop (w : Fin n → Fin n → ℝ) : ℕ → Prim n → Except Exc (Prim n)
  | 0, s => .ok s
  | k + 1, s => match primStep w s with
    | .error e => .error e
    | .ok s' => primLoop w k s'

/-- `_prim_maximum_spanning_tree`, cltree.py:81-126. -/
noncomputable def prim (w : Fin n → Fin n → ℝ) (root : Fin n) : Except Exc (Fin n → Option (Fin n)) :=
  match primLoop w (n - 1) (prim0 w root) with
  | .error e => .error e
  | .ok s => .ok (Function.update s.parents root none)

end Verif.Mst

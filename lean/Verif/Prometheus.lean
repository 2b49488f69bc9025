import Verif.MstTopk

/-!
# Model of the variable partitions of Prometheus

spflow/learn/prometheus.py:131-162 (`_mst_partitions_from_affinity`) and 254-285 (`_mst_partitions_from_sampled_edges`).
networkx is modelled by what its functions are documented to do: `from_numpy_array` keeps the non-zero entries,
`maximum_spanning_tree` is Kruskal (keep an edge, in order of decreasing weight, iff it joins two components; `Mst.greedy`),
`connected_components` lists the components in the order of their first node.
-/

namespace Verif.Prom

open Verif.Span Verif.Mst

variable {n : ℕ}

open Classical in
/-- `[sorted(list(c)) for c in connected_components(tree)]`. -/
noncomputable def components (S : List (Edge n)) : List (List (Fin n)) :=
  ((List.finRange n).filter fun r => r ∈ reps S.toFinset).map fun r =>
    (List.finRange n).filter fun v => Conn S.toFinset r v

open Classical in
/-- `maximum_spanning_tree(graph, weight="weight")` for the graph with the given edges. -/
noncomputable def maxTree (w : Edge n → ℝ) (es : List (Edge n)) : List (Edge n) :=
  greedy (es.insertionSort fun e f => w f ≤ w e) []

open Classical in
/-- `from_numpy_array`: the non-zero entries above the diagonal (the loops on the diagonal are never tree edges). -/
noncomputable def nzEdges (w : Edge n → ℝ) : List (Edge n) := (triu n).filter fun e => w e ≠ 0

/-- The loop that severs the sorted edges one at a time, prometheus.py:153-160 and 278-284. -/
noncomputable def severed (sorted : List (Edge n)) : List (List (List (Fin n))) :=
  (List.range sorted.length).map fun k => components (sorted.drop (k + 1))

/-- `_mst_partitions_from_affinity`, prometheus.py:131-162.  `sort` is the stable sort of the tree's edges by increasing
weight, whose order among equal weights depends on networkx' iteration order. -/
noncomputable def fromAffinity (w : Edge n → ℝ) (sort : List (Edge n) → List (Edge n)) : List (List (List (Fin n))) :=
  if n ≤ 1 then [] else severed (sort (maxTree w (nzEdges w)))

/-- Zero-weight chain through the first nodes of the components, prometheus.py:271-275. -/
noncomputable def chain (F : List (Edge n)) : List (Edge n) :=
  let rs := (components F).map fun c => c.head?
  let rs := rs.reduceOption
  rs.zip rs.tail

open Classical in
/-- `_mst_partitions_from_sampled_edges`, prometheus.py:254-285. -/
noncomputable def fromSampled (w : Edge n → ℝ) (es : List (Edge n)) (sort : (Edge n → ℝ) → List (Edge n) → List (Edge n)) :
    List (List (List (Fin n))) :=
  if n ≤ 1 then []
  else
    let F := maxTree w es
    let ch := if (components F).length > 1 then chain F else []
    severed (sort (fun e => if e ∈ ch then 0 else w e) (F ++ ch))

end Verif.Prom

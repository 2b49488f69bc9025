import Verif.LearnSpn
import Mathlib.Data.Real.Sqrt

/-!
# Model of `learn_prometheus`

spflow/learn/prometheus.py.  Arbitrary oracles: the clustering method (k-means included), a custom similarity, the random
dependence coefficient `rdc` (spflow/utils/rdc.py), the sampled neighbours, the leaves' maximum likelihood fit and the random
initial weights of `Sum(inputs=m, out_channels=..)`.  They may answer differently at every call; `path` identifies the call.
Pearson correlation is computed.  Reals stand for floats.  networkx' graph functions are modelled by their documented
algorithms: edge dictionaries in insertion order, Kruskal with a stable sort, components labelled by their smallest node.
Unconditional scopes only.
-/

namespace Verif.Prometheus

open Verif Verif.Circ Verif.Build
open Verif.LearnSpn (uniq sel)

/-- A weighted edge `(u, v, w)`. -/
abbrev WEdge := ℕ × ℕ × ℝ

/-- Two edges between the same nodes (after sorting the endpoints). -/
def samePair (f e : WEdge) : Bool := f.1 = e.1 && f.2.1 = e.2.1

/-- `Graph.add_edge(u, v, weight=w)`: a dictionary keyed by the unordered pair; an existing edge keeps its place and gets the
new weight.  Used at prometheus.py:150 (`from_numpy_array`) and 268-269. -/
def addEdge (g : List WEdge) (e : WEdge) : List WEdge :=
  let e' : WEdge := (min e.1 e.2.1, max e.1 e.2.1, e.2.2)
  if g.any (samePair e') then g.map (fun f => if samePair e' f then e' else f) else g ++ [e']

/-- The order in which `Graph.edges` lists the edges of a graph with nodes `0..d-1`: by first endpoint, then by insertion. -/
def edgesOf (d : ℕ) (g : List WEdge) : List WEdge := (List.range d).flatMap fun u => g.filter fun e => e.1 = u

/-- One edge joins the components of its endpoints. -/
def merge (l : ℕ → ℕ) (e : WEdge) : ℕ → ℕ :=
  fun x => if l x = l e.1 ∨ l x = l e.2.1 then min (l e.1) (l e.2.1) else l x

/-- The smallest node connected to each node. -/
def label (es : List WEdge) : ℕ → ℕ := es.foldl merge id

/-- `[sorted(list(c)) for c in connected_components(tree)]`, prometheus.py:159, 272, 283: components in the order of their
smallest nodes. -/
def comps (d : ℕ) (es : List WEdge) : List (List ℕ) :=
  ((List.range d).filter fun v => label es v = v).map fun r => (List.range d).filter fun x => label es x = r

/-- Kruskal's loop of `maximum_spanning_tree`: an edge is taken when its endpoints are not connected yet. -/
def kruskal : List WEdge → List WEdge → List WEdge
  | [], acc => acc
  | e :: es, acc => if label acc e.1 = label acc e.2.1 then kruskal es acc else kruskal es (acc ++ [e])

open Classical in
/-- Edges by decreasing weight (stable). -/
noncomputable def descending (es : List WEdge) : List WEdge := es.insertionSort fun a b => b.2.2 ≤ a.2.2

open Classical in
/-- `sorted(tree.edges(data=True), key=weight)`, prometheus.py:153, 278. -/
noncomputable def ascending (es : List WEdge) : List WEdge := es.insertionSort fun a b => a.2.2 ≤ b.2.2

/-- `maximum_spanning_tree(graph)`, prometheus.py:151, 271: a spanning forest when the graph is not connected. -/
noncomputable def maxTree (d : ℕ) (g : List WEdge) : List WEdge := kruskal (descending (edgesOf d g)) []

/-- The loop at prometheus.py:156-160, 280-284: remove the edges one at a time, record the components after each removal. -/
def sever (d : ℕ) : List WEdge → List (List (List ℕ))
  | [] => []
  | _ :: es => comps d es :: sever d es

/-- Partitions of a tree, prometheus.py:153-162, 278-285. -/
noncomputable def partitionsOf (d : ℕ) (tree : List WEdge) : List (List (List ℕ)) := sever d (ascending (edgesOf d tree))

/-- A matrix. -/
structure Mat where
  r : ℕ
  c : ℕ
  at2 : ℕ → ℕ → ℝ

open Classical in
/-- `from_numpy_array(affinity)`, prometheus.py:150: one `add_edge` per non-zero entry, row by row (self-loops included). -/
noncomputable def fromArray (A : Mat) : List WEdge :=
  (((List.range A.r).flatMap fun i => (List.range A.c).map fun j => ((i, j, A.at2 i j) : WEdge)).filter
    fun e => e.2.2 ≠ 0).foldl addEdge []

/-- `_mst_partitions_from_affinity`, prometheus.py:131-162. -/
noncomputable def fullPartitions (A : Mat) : Except Exc (List (List (List ℕ))) :=
  if A.r ≠ A.c then .error .invalidParameter
  else if A.r ≤ 1 then .ok []
  else .ok (partitionsOf A.r (maxTree A.r (fromArray A)))

/-- The zero-weight chain through the components' smallest nodes, prometheus.py:272-276. -/
def chain (d : ℕ) (tree : List WEdge) : List WEdge :=
  let reps := (comps d tree).map fun c => c.headD 0
  if (comps d tree).length > 1 then tree ++ (reps.zip reps.tail).map (fun p => ((p.1, p.2, 0) : WEdge)) else tree

/-- `_mst_partitions_from_sampled_edges`, prometheus.py:254-285. -/
noncomputable def sampledPartitions (d : ℕ) (edges : List WEdge) : List (List (List ℕ)) :=
  if d ≤ 1 then [] else partitionsOf d (chain d (maxTree d (edges.foldl addEdge [])))

/-- `_default_samples_per_var`, prometheus.py:165-169. -/
def defaultSamples (d : ℕ) : ℕ := if d ≤ 1 then 0 else max 1 (min (d - 1) (Nat.log 2 d))

/-- The neighbour drawn as `c`, prometheus.py:206, 245: node `i` itself is skipped. -/
def neighbour (i c : ℕ) : ℕ := if c < i then c else c + 1

/-- The loop of `_sampled_edges_corr` / `_sampled_edges_rdc`, prometheus.py:200-212, 239-251: `choices i` are the indices
drawn for variable `i`, a pair already present is not evaluated again. -/
def sampledEdges (d k : ℕ) (choices : ℕ → List ℕ) (w : ℕ → ℕ → ℝ) : List WEdge :=
  if d ≤ 1 ∨ k = 0 then []
  else ((List.range d).flatMap fun i => (choices i).map fun c => (min i (neighbour i c), max i (neighbour i c))).foldl
    (fun es p => if es.any (fun f => f.1 = p.1 && f.2.1 = p.2) then es else es ++ [(p.1, p.2, w p.1 p.2)]) []

/-! ## Similarities -/

/-- A column of the data; a missing value (NaN) raises before any value is used. -/
noncomputable def column (rows : List Row) (v : Var) : List ℝ := rows.map fun r => (r v).getD 0

/-- `torch.isnan(data).any()` on the scoped data. -/
def hasNaN (rows : List Row) (scope : List Var) : Bool := rows.any fun r => scope.any fun v => (r v).isNone

/-- `x = data - mean`, prometheus.py:100, 196. -/
noncomputable def centred (xs : List ℝ) : List ℝ := xs.map fun x => x - xs.sum / xs.length

/-- `denom`, prometheus.py:101, 197. -/
noncomputable def scale (xs : List ℝ) : ℝ := max (Real.sqrt ((xs.map fun x => x * x).sum)) (1 / 10 ^ 12)

/-- Inner product of the scaled columns. -/
noncomputable def dot (xs ys : List ℝ) : ℝ :=
  (((centred xs).map fun x => x / scale (centred xs)).zipWith (· * ·) ((centred ys).map fun y => y / scale (centred ys))).sum

/-- An entry of `_affinity_corr`, prometheus.py:103-104. -/
noncomputable def corrEntry (xs ys : List ℝ) : ℝ := |max (-1) (min 1 (dot xs ys))|

/-- `_affinity_corr`, prometheus.py:82-105. -/
noncomputable def affinityCorr (rows : List Row) (scope : List Var) : Except Exc Mat :=
  if hasNaN rows scope then .error .unsupported
  else .ok ⟨scope.length, scope.length, fun i j =>
    if i = j then 1 else corrEntry (column rows (scope.getD i 0)) (column rows (scope.getD j 0))⟩

/-- `_affinity_rdc`, prometheus.py:108-129; `rdc i j` is evaluated for `i < j`. -/
noncomputable def affinityRdc (rdc : ℕ → ℕ → ℝ) (rows : List Row) (scope : List Var) : Except Exc Mat :=
  if hasNaN rows scope then .error .unsupported
  else .ok ⟨scope.length, scope.length, fun i j => if i = j then 1 else rdc (min i j) (max i j)⟩

/-- `similarity`. -/
inductive Similarity
  | corr | rdc | custom | unknown
  deriving DecidableEq

/-- `affinity_mode` with `sampling_per_var`. -/
inductive Mode
  | full | sampled (k : Option ℕ) | unknown
  deriving DecidableEq

/-! ## The learner -/

/-- The callables and random draws. -/
structure Oracle where
  clus : List ℕ → List Row → List Var → List ℕ
  custom : List ℕ → List Row → List Var → Except Exc Mat
  rdc : List ℕ → List Row → List Var → ℕ → ℕ → ℝ
  choices : List ℕ → ℕ → ℕ → ℕ → List ℕ
  fit : List ℕ → ℕ → List Row → List Var → ℕ → ℕ → ℕ → ℝ → LogV
  rnd : List ℕ → ℕ → ℕ → ℕ → ℕ → ℕ → LogV

/-- Arguments; `tmpl` are the leaf templates `(scope, channels)`, `known` says that `clustering_method` is `"kmeans"` or a
callable. -/
structure Cfg where
  tmpl : List (List Var × ℕ)
  outCh : ℕ
  minF : ℕ
  minI : ℕ
  nClus : ℕ
  known : Bool
  sim : Similarity
  mode : Mode

/-- The end of `_create_partitioned_mv_leaf`, prometheus.py:332-342. -/
def pickLeaf (scope : List Var) (leaves : List Circ) : Except Exc Circ :=
  match leaves with
  | [] => .error .invalidParameter
  | c :: cs => if scope.length = 1 then .ok c else mkProd (c :: cs)

/-- `_create_partitioned_mv_leaf`, prometheus.py:307-342. -/
def mvLeaf (cfg : Cfg) (O : Oracle) (path : List ℕ) (rows : List Row) (scope : List Var) : Except Exc Circ :=
  match (cfg.tmpl.zipIdx.filter fun t => (scope.filter fun v => t.1.1.contains v) ≠ []).mapM fun t =>
    mkLeaf (Scope.sortedSet (scope.filter fun v => t.1.1.contains v)) t.1.2 1
      (O.fit path t.2 rows (Scope.sortedSet (scope.filter fun v => t.1.1.contains v))) with
  | .error e => .error e
  | .ok leaves => pickLeaf scope leaves

/-- `target_channels`, prometheus.py:48. -/
def width (ms : List Circ) : ℕ := (ms.map C).foldr max 0

/-- `_adapt_product_inputs`, prometheus.py:41-56. -/
def adapt (O : Oracle) (path : List ℕ) (ms : List Circ) : List Circ :=
  ms.zipIdx.map fun m => if C m.1 < width ms then sum m.1 (width ms) 1 (O.rnd path m.2) else m.1

/-- Partitions of the variables of one cluster, prometheus.py:396-407. -/
noncomputable def partitions (cfg : Cfg) (O : Oracle) (path : List ℕ) (rows : List Row) (scope : List Var) :
    Except Exc (List (List (List ℕ))) :=
  match cfg.mode with
  | .sampled k =>
    if hasNaN rows scope then .error .unsupported
    else
      let k := k.getD (defaultSamples scope.length)
      .ok (sampledPartitions scope.length (sampledEdges scope.length k (O.choices path scope.length (min k (scope.length - 1)))
        (match cfg.sim with
          | .corr => fun a b => |dot (column rows (scope.getD a 0)) (column rows (scope.getD b 0))|
          | _ => O.rdc path rows scope)))
  | _ =>
    match (match cfg.sim with
      | .corr => affinityCorr rows scope
      | .rdc => affinityRdc (O.rdc path rows scope) rows scope
      | _ => O.custom path rows scope) with
    | .error e => .error e
    | .ok A => fullPartitions A

/-- The memo of one cluster, prometheus.py:412: scope ↦ learned module. -/
abbrev Memo := List (List Var × Circ)

/-- One component: looked up or learned, prometheus.py:418-434. -/
def child (sub : ℕ → List Var → Except Exc Circ) (memo : Memo) (q : List Var) : Except Exc (Circ × Memo) :=
  match memo.lookup q with
  | some c => .ok (c, memo)
  | none => match sub memo.length q with
    | .error e => .error e
    | .ok c => .ok (c, memo ++ [(q, c)])

/-- The components of one partition, prometheus.py:416-434. -/
def children (sub : ℕ → List Var → Except Exc Circ) : Memo → List (List Var) → Except Exc (List Circ × Memo)
  | memo, [] => .ok ([], memo)
  | memo, q :: qs => match child sub memo q with
    | .error e => .error e
    | .ok (c, memo) => match children sub memo qs with
      | .error e => .error e
      | .ok (cs, memo) => .ok (c :: cs, memo)

/-- `Scope([scope.query[i] for i in component])`, prometheus.py:414: IndexError past the end, the constructor's checks. -/
def componentScope (scope : List Var) (comp : List ℕ) : Except Exc (List Var) :=
  match comp.mapM (fun i => if h : i < scope.length then (.ok scope[i] : Except Exc Var) else .error .indexError) with
  | .error e => .error e
  | .ok q => match Scope.mk? q [] with
    | .error e => .error e
    | .ok _ => .ok q

/-- One product per partition, prometheus.py:413-437. -/
def products (O : Oracle) (path : List ℕ) (sub : ℕ → List Var → Except Exc Circ) (scope : List Var) :
    ℕ → Memo → List (List (List ℕ)) → Except Exc (List Circ × Memo)
  | _, memo, [] => .ok ([], memo)
  | i, memo, p :: ps => match p.mapM (componentScope scope) with
    | .error e => .error e
    | .ok qs => match children sub memo qs with
      | .error e => .error e
      | .ok (cs, memo) => match mkProd (adapt O (path ++ [i]) cs) with
        | .error e => .error e
        | .ok c => match products O path sub scope (i + 1) memo ps with
          | .error e => .error e
          | .ok (rest, memo) => .ok (c :: rest, memo)

/-- The loop body for one cluster, prometheus.py:388-443: products with their priors. -/
noncomputable def cluster (cfg : Cfg) (O : Oracle) (path : List ℕ) (sub : ℕ → List Var → Except Exc Circ) (scope : List Var)
    (total : ℕ) (rows : List Row) : Except Exc (List (ℝ × Circ)) :=
  if rows.length < 2 then .ok []
  else match partitions cfg O path rows scope with
    | .error e => .error e
    | .ok ps => match products O path sub scope 0 [] ps with
      | .error e => .error e
      | .ok (cs, _) => .ok (cs.map fun c => ((rows.length : ℝ) / total / ps.length, c))

/-- `per_channel_weights` after division by their total, prometheus.py:449-457, as the `Sum`'s weight tensor. -/
noncomputable def weightTensor (l : List (ℝ × Circ)) : Weights where
  Fw := 1
  Ci := (spread l).length
  Co := 1
  R := 1
  val := fun _ ci _ _ => ((spread l).map fun w => w / (spread l).sum).getD ci 0

open Classical in
/-- The end of the recursion, prometheus.py:445-463; `leaf` is the fall-back. -/
noncomputable def combine (leaf : Except Exc Circ) (l : List (ℝ × Circ)) : Except Exc Circ :=
  if l.isEmpty then leaf
  else if (spread l).sum ≤ 0 then leaf
  else match l with
    | [a] => .ok a.2
    | l => mkSum (l.map Prod.snd) (weightTensor l)

/-- `_learn_prometheus_single_channel`, prometheus.py:345-463.  Running out of `fuel` stands for Python's RecursionError. -/
noncomputable def learn (cfg : Cfg) (O : Oracle) : ℕ → List ℕ → List Row → List Var → Except Exc Circ
  | 0, _, _, _ => .error .recursionError
  | fuel + 1, path, rows, scope =>
    if scope.length < cfg.minF ∨ rows.length < cfg.minI then mvLeaf cfg O path rows scope
    else
      let labels := O.clus path rows scope
      match (uniq labels).mapM (fun id =>
        cluster cfg O (path ++ [id]) (fun i q => learn cfg O fuel (path ++ [id, i]) (sel rows labels id) q) scope rows.length
          (sel rows labels id)) with
      | .error e => .error e
      | .ok ls => combine (mvLeaf cfg O path rows scope) ls.flatten

/-- `_infer_scope_from_leaf_modules`, prometheus.py:288-304. -/
def requested (cfg : Cfg) : Option (List Var) → Except Exc (List Var)
  | some q => .ok q
  | none => match cfg.tmpl with
    | [] => .error .invalidParameter
    | ts => match Scope.joinAll (ts.map fun t => ⟨t.1, []⟩) with
      | .error e => .error e
      | .ok s => .ok s.query

/-- The checks, prometheus.py:538-574. -/
def argsOk (cfg : Cfg) : Bool :=
  1 ≤ cfg.outCh && 1 ≤ cfg.minF && 1 ≤ cfg.minI && 1 ≤ cfg.nClus && cfg.mode ≠ .unknown && cfg.mode ≠ .sampled (some 0) &&
    cfg.known && cfg.sim ≠ .unknown && !(cfg.sim = .custom && cfg.mode ≠ .full)

/-- `learn_prometheus`, prometheus.py:466-602. -/
noncomputable def learnPrometheus (cfg : Cfg) (O : Oracle) (fuel : ℕ) (rows : List Row) (scope : Option (List Var)) :
    Except Exc Circ :=
  match requested cfg scope with
  | .error e => .error e
  | .ok q =>
    if argsOk cfg then
      match (List.range cfg.outCh).mapM (fun ch => learn cfg O fuel [ch] rows q) with
      | .error e => .error e
      | .ok l => LearnSpn.stack l
    else .error .invalidParameter

end Verif.Prometheus

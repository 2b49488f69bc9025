import Verif.Scope
/-
Model of the graph traversals: spflow/meta/region_graph.py (C05) and spflow/utils/structure_stats.py
(C49).

Nodes are elements of a type `K` with decidable equality (the equality used by the Python `visited` set:
`==`/hash for regions, `id` for modules); `ch` gives the list of children in the order the code iterates
them, with repetitions (for regions: the concatenation of the partitions). Recursion and loops carry a
fuel argument; `none` means the fuel ran out. The properties show that fuel proportional to the size of
the graph always suffices, so it does not restrict anything.
-/
namespace Verif.Graph
variable {K : Type} [DecidableEq K]

/-- `RegionGraph.post_order._dfs` (region_graph.py:71-86) on the state `(visited, result)`. -/
def dfs (ch : K → List K) : Nat → K → List K × List K → Option (List K × List K)
  | 0, _, _ => none
  | n + 1, v, st =>
    if v ∈ st.1 then some st
    else match (ch v).foldlM (fun st c => dfs ch n c st) (v :: st.1, st.2) with
      | none => none
      | some st' => some (st'.1, st'.2 ++ [v])

/-- `RegionGraph.post_order` (region_graph.py:69-89). -/
def postOrder (ch : K → List K) (fuel : Nat) (root : K) : Option (List K) :=
  (dfs ch fuel root ([], [])).map Prod.snd

/-- `RegionGraph.regions` (region_graph.py:55-67): explicit stack, head of the list on top; the children
are appended in order, so the last one is popped first. -/
def regionsLoop (ch : K → List K) : Nat → List K → List K → Option (List K)
  | 0, _, _ => none
  | _ + 1, [], vis => some vis
  | n + 1, v :: st, vis =>
    if v ∈ vis then regionsLoop ch n st vis
    else regionsLoop ch n ((ch v).reverse ++ st) (v :: vis)

/-- State of the loop of `get_structure_stats` (structure_stats.py:157-196): visited nodes, number of
edges, and the list of all counted parent→child references (the dict `in_degree` is its count). -/
structure Stats (K : Type) where
  visited : List K
  edges : Nat
  refs : List K

/-- The loop (structure_stats.py:169-196): only children that are not yet visited are pushed. -/
def statsLoop (ch : K → List K) : Nat → List K → Stats K → Option (Stats K)
  | 0, _, _ => none
  | _ + 1, [], s => some s
  | n + 1, v :: st, s =>
    if v ∈ s.visited then statsLoop ch n st s
    else
      let vis := v :: s.visited
      statsLoop ch n (((ch v).filter (· ∉ vis)).reverse ++ st)
        ⟨vis, s.edges + (ch v).length, s.refs ++ ch v⟩

/-- `num_shared_nodes` (structure_stats.py:198): the number of keys with in-degree above one. -/
def numShared (s : Stats K) : Nat := (s.refs.dedup.filter fun k => 1 < s.refs.count k).length

/-- One step of `max(dfs(child) for child in children)` (structure_stats.py:216): the exception of a child
propagates. -/
def depthStep (go : K → List (K × Nat) → Option (Except Exc (Nat × List (K × Nat))))
    (acc : Except Exc (Nat × List (K × Nat))) (x : K) : Option (Except Exc (Nat × List (K × Nat))) :=
  match acc with
  | .error e => some (.error e)
  | .ok (best, memo) =>
    match go x memo with
    | none => none
    | some (.error e) => some (.error e)
    | some (.ok (d, memo')) => some (.ok (max best d, memo'))

/-- `_max_depth.dfs` (structure_stats.py:200-221) with the memo threaded; `visiting` is restored on return,
so it is passed downwards. -/
def depth (ch : K → List K) : Nat → K → List (K × Nat) → List K → Option (Except Exc (Nat × List (K × Nat)))
  | 0, _, _, _ => none
  | n + 1, v, memo, visiting =>
    match memo.find? (fun p => p.1 = v) with
    | some p => some (.ok (p.2, memo))
    | none =>
      if v ∈ visiting then some (.error .structureError)
      else
        match ch v with
        | [] => some (.ok (1, (v, 1) :: memo))
        | c :: cs =>
          let r := (c :: cs).foldlM (depthStep fun x memo => depth ch n x memo (v :: visiting)) (.ok (0, memo))
          match r with
          | none => none
          | some (.error e) => some (.error e)
          | some (.ok (best, memo')) => some (.ok (1 + best, (v, 1 + best) :: memo'))

/-- `get_structure_stats(model).max_depth` (structure_stats.py:223). -/
def maxDepth (ch : K → List K) (fuel : Nat) (root : K) : Option (Except Exc Nat) :=
  match depth ch fuel root [] [] with
  | none => none
  | some (.error e) => some (.error e)
  | some (.ok (d, _)) => some (.ok d)

/-! ### Regions -/

/-- A region graph under construction: scope and partitions of every region object. -/
structure RG where
  scope : Nat → Scope
  parts : Nat → List (List Nat)

/-- `Region.add_partition` (region_graph.py:24-37). -/
def addPartition (g : RG) (r : Nat) (regions : List Nat) : Except Exc RG := do
  let disj ← Scope.allPairwiseDisjoint (regions.map g.scope)
  if !disj then throw .valueError
  let child ← Scope.joinAll (regions.map g.scope)
  if !(Scope.equalQuery child (g.scope r)) then throw .valueError
  pure { g with parts := fun k => if k = r then g.parts r ++ [regions] else g.parts k }

/-- Children of a region in iteration order (region_graph.py:64-66, 82-84). -/
def RG.children (g : RG) (r : Nat) : List Nat := (g.parts r).flatten

end Verif.Graph

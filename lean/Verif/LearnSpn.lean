import Verif.BuildKit

/-!
# Model of `learn_spn`

spflow/learn/learn_spn.py:80-90 (`adapt_product_inputs`), 178-421 (`learn_spn`).  The clustering method, the partitioning
method, the leaves' maximum likelihood fit and the random initial weights of `Sum(inputs=m, out_channels=..)` are arbitrary
oracles; they may answer differently at every call (`path` identifies the call).  Every leaf template is a class with its
scope and channel number.  Running out of `fuel` stands for Python's RecursionError.  Unconditional scopes only.
-/

namespace Verif.LearnSpn

open Verif Verif.Circ Verif.Build

/-- `torch.unique`. -/
def uniq (labels : List ℕ) : List ℕ := labels.dedup.insertionSort (· ≤ ·)

/-- `[x for x, l in zip(xs, labels) if l == id]`: both `data[labels == id]` and the partition index lists. -/
def sel {α : Type} (xs : List α) (labels : List ℕ) (id : ℕ) : List α :=
  ((xs.zip labels).filter fun a => a.2 = id).map Prod.fst

/-- The callables and random draws. -/
structure Oracle (ρ : Type) where
  part : List ℕ → List ρ → List Var → List ℕ
  clus : List ℕ → ℕ → List ρ → List ℕ
  fit : List ℕ → ℕ → List ρ → List Var → ℕ → ℕ → ℕ → ℝ → LogV
  rnd : List ℕ → ℕ → ℕ → ℕ → ℕ → ℕ → LogV

/-- Arguments: leaf templates `(scope, channels)`, `out_channels`, `min_features_slice`, `min_instances_slice`. -/
structure Cfg where
  tmpl : List (List Var × ℕ)
  outCh : ℕ
  minF : ℕ
  minI : ℕ

variable {ρ : Type}

/-- The end of `create_partitioned_mv_leaf`, learn_spn.py:299-304: a Product, or the only leaf. -/
def pickLeaf (scope : List Var) (leaves : List Circ) : Except Exc Circ :=
  if scope.length > 1 then mkProd leaves
  else match leaves with
    | [] => .error .indexError
    | c :: _ => .ok c

/-- `create_partitioned_mv_leaf`, learn_spn.py:270-304. -/
def mvLeaf (cfg : Cfg) (O : Oracle ρ) (path : List ℕ) (rows : List ρ) (scope : List Var) : Except Exc Circ :=
  match (cfg.tmpl.zipIdx.filter fun t => (scope.filter fun v => t.1.1.contains v) ≠ []).mapM fun t =>
    mkLeaf (Scope.sortedSet (scope.filter fun v => t.1.1.contains v)) t.1.2 1
      (O.fit path t.2 rows (Scope.sortedSet (scope.filter fun v => t.1.1.contains v))) with
  | .error e => .error e
  | .ok leaves => pickLeaf scope leaves

/-- `ref_oc` of `adapt_product_inputs`, learn_spn.py:81, with `leaf_oc` from line 346. -/
def refOc (cfg : Cfg) : ℕ :=
  let leafOc := (cfg.tmpl.head?.map Prod.snd).getD 0
  if leafOc > cfg.outCh then leafOc else cfg.outCh

/-- The fraction of rows with each label, learn_spn.py:385-388. -/
noncomputable def fractions (labels : List ℕ) (n : ℕ) : List ℝ :=
  (uniq labels).map fun id => ((labels.filter fun l => l = id).length : ℝ) / (n : ℝ)

/-- One output channel: one sub-structure per cluster and the Sum over them, learn_spn.py:362-403. -/
noncomputable def oneChannel (sub : ℕ → List ρ → Except Exc Circ) (labels : List ℕ) (rows : List ρ) : Except Exc Circ :=
  match (uniq labels).mapM (fun id => sub id (sel rows labels id)) with
  | .error e => .error e
  | .ok subs => mkSum (((fractions labels rows.length).zip subs).map Prod.snd)
      (spreadW 1 ((fractions labels rows.length).zip subs))

/-- `adapt_product_inputs`, learn_spn.py:80-90. -/
def adapt (cfg : Cfg) (O : Oracle ρ) (path : List ℕ) (subs : List Circ) : List Circ :=
  subs.zipIdx.map fun m => if C m.1 < refOc cfg then sum m.1 (refOc cfg) 1 (O.rnd path m.2) else m.1

/-- The Sums of all channels side by side, learn_spn.py:405-408. -/
def stack : List Circ → Except Exc Circ
  | [s] => .ok s
  | l => mkCat 2 l

/-- The column groups, learn_spn.py:315-327: none when there is a single row. -/
def partsOf (labels : List ℕ) (n : ℕ) (scope : List Var) : List (List Var) :=
  if n = 1 then [] else (uniq labels).map (sel scope labels)

/-- The recursion, learn_spn.py:306-421. -/
noncomputable def learn (cfg : Cfg) (O : Oracle ρ) : ℕ → List ℕ → List ρ → List Var → Except Exc Circ
  | 0, _, _, _ => .error .recursionError
  | fuel + 1, path, rows, scope =>
    if scope.length < cfg.minF then mvLeaf cfg O path rows scope
    else
      if (partsOf (O.part path rows scope) rows.length scope).length > 1 then
        match (partsOf (O.part path rows scope) rows.length scope).zipIdx.mapM (fun p => learn cfg O fuel (path ++ [p.2]) rows p.1) with
        | .error e => .error e
        | .ok subs => mkProd (adapt cfg O path subs)
      else if rows.length < cfg.minI then mvLeaf cfg O path rows scope
      else
        match (List.range cfg.outCh).mapM (fun ch =>
          oneChannel (fun id sub => learn cfg O fuel (path ++ [ch, id]) sub scope) (O.clus path ch rows) rows) with
        | .error e => .error e
        | .ok l => stack l

/-- The scope to learn: the given one, or the union of the templates' scopes, learn_spn.py:221-233. -/
def requested (cfg : Cfg) : Option (List Var) → Except Exc (List Var)
  | some q => .ok q
  | none => match cfg.tmpl with
    | [] => .error .indexError
    | [t] => .ok t.1
    | ts => do
      let disj ← Scope.allPairwiseDisjoint (ts.map fun t => ⟨t.1, []⟩)
      if ! disj then throw .valueError
      let s ← Scope.joinAll (ts.map fun t => ⟨t.1, []⟩)
      return s.query

/-- Argument checks at the top of every call, learn_spn.py:221-263, then the recursion. -/
noncomputable def learnSpn (cfg : Cfg) (O : Oracle ρ) (fuel : ℕ) (rows : List ρ) (scope : Option (List Var)) :
    Except Exc Circ :=
  match requested cfg scope with
  | .error e => .error e
  | .ok q =>
    if cfg.minI < 2 then .error .valueError
    else if cfg.minF < 2 then .error .valueError
    else learn cfg O fuel [] rows q

end Verif.LearnSpn

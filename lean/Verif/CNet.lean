import Verif.BuildKit
import Verif.Leaves

/-!
# Model of `learn_cnet`

spflow/learn/cnet.py:81-321.  Rows are complete assignments of natural numbers (what `_validate_discrete_data` lets through,
up to its 1e-5 rounding tolerance).  Fitted leaves are an oracle: any circuit over the given variables (`fit`); a Chow-Liu tree
is represented by a circuit with the same distribution (its `features` output columns, of which only the first is not zero,
are one feature here).  A `CLTree` that was never fitted still has the right shape but `log_likelihood` raises
`RuntimeError` (cltree.py:322-325): `ready` records whether every leaf of the network was fitted.
-/

namespace Verif.CNet

open Verif Verif.Circ Verif.Build

/-- A data row. -/
abbrev Obs := Var → ℕ

/-- Arguments: cardinalities, channels, slice limits, smoothing. -/
structure Cfg where
  card : Var → ℕ
  outCh : ℕ
  minF : ℕ
  minI : ℕ
  alpha : ℝ

/-- A module and whether all its leaves are fitted. -/
structure Net where
  circ : Circ
  ready : Bool

/-- `log_likelihood` of one row. -/
noncomputable def logLikelihood (n : Net) (x : Row) (k : ℕ) : Except Exc LogV :=
  if n.ready then .ok (featAt (den n.circ) 0 x 0 k) else .error .runtimeError

/-- `_create_leaf`, cnet.py:290-321, with the constructor checks of `CLTree` (cltree.py:152-155); a CLTree is fitted only with
two rows (311), a Categorical works without (319). -/
noncomputable def createLeaf (cfg : Cfg) (fit : List Obs → List Var → Circ) (rows : List Obs) (scope : List Var) :
    Except Exc Net :=
  open Classical in
  if 2 ≤ scope.length then
    if (scope.map cfg.card).foldr max 0 < 2 then .error .invalidParameter
    else if cfg.alpha ≤ 0 then .error .invalidParameter
    else .ok ⟨fit rows scope, decide (2 ≤ rows.length)⟩
  else match scope with
    | [] => .error .indexError
    | _ :: _ => .ok ⟨fit rows scope, true⟩

/-- The deterministic Categorical with all mass on `val`, cnet.py:226-234. -/
noncomputable def indLL (val : ℕ) (t : ℝ) : LogV := open Classical in if t = (val : ℝ) then 0 else ⊥

/-- Rows with value `val`, cnet.py:220. -/
def slice (rows : List Obs) (v : Var) (val : ℕ) : List Obs := rows.filter fun x => x v = val

/-- One branch, cnet.py:219-247. -/
noncomputable def branch (cfg : Cfg) (fit : List Obs → List Var → Circ) (sub : List Obs → List Var → Except Exc Net)
    (rows : List Obs) (rest : List Var) (v : Var) (val : ℕ) : Except Exc Net :=
  match mkLeaf [v] cfg.outCh 1 (fun _ _ _ => indLL val) with
  | .error e => .error e
  | .ok cat =>
    match (if slice rows v val = [] then createLeaf cfg fit [] rest else sub (slice rows v val) rest) with
    | .error e => .error e
    | .ok s => match mkProd [cat, s.circ] with
      | .error e => .error e
      | .ok p => .ok ⟨p, s.ready⟩

/-- `weights_list` after normalisation, cnet.py:248-256. -/
noncomputable def weights (rows : List Obs) (v : Var) (K : ℕ) : List ℝ :=
  let counts := (List.range K).map fun val => ((slice rows v val).length : ℝ)
  open Classical in
  if counts.sum = 0 then List.replicate K (1 / (K : ℝ)) else counts.map (· / counts.sum)

/-- The end of `_build_cnet`, cnet.py:258-288: the only branch with data, or a Sum over all branches. -/
noncomputable def combine (cfg : Cfg) (ws : List ℝ) (nets : List Net) : Except Exc Net :=
  open Classical in
  match (ws.zip nets).filter fun a => 0 < a.1 with
  | [a] => .ok a.2
  | _ => match mkSum ((ws.zip (nets.map Net.circ)).map Prod.snd) (spreadW cfg.outCh (ws.zip (nets.map Net.circ))) with
    | .error e => .error e
    | .ok c => .ok ⟨c, nets.all Net.ready⟩

/-- Exceptions of a branch propagate. -/
noncomputable def finish (cfg : Cfg) (ws : List ℝ) : Except Exc (List Net) → Except Exc Net
  | .error e => .error e
  | .ok nets => combine cfg ws nets

/-- The next conditioning variable, cnet.py:200-205. -/
def condVar (order scope : List Var) : Option Var := order.find? fun v => scope.contains v

/-- `_build_cnet`, cnet.py:172-288. -/
noncomputable def build (cfg : Cfg) (fit : List Obs → List Var → Circ) (order : List Var) :
    ℕ → List Obs → List Var → Except Exc Net
  | 0, _, _ => .error .recursionError
  | fuel + 1, rows, scope =>
    if scope.length ≤ cfg.minF ∨ rows.length < cfg.minI then createLeaf cfg fit rows scope
    else match condVar order scope with
      | none => createLeaf cfg fit rows scope
      | some v =>
        if scope.filter (· ≠ v) = [] then createLeaf cfg fit rows scope
        else finish cfg (weights rows v (cfg.card v)) ((List.range (cfg.card v)).mapM
          (branch cfg fit (build cfg fit order fuel) rows (scope.filter (· ≠ v)) v))

/-- `learn_cnet` for valid argument types, cnet.py:114-290: data validation (34-47; `min()` of an empty column raises), an
arbitrary conditioning order (by entropy or shuffled), then the recursion. -/
noncomputable def learnCnet (cfg : Cfg) (fit : List Obs → List Var → Circ) (order : List Var) (fuel : ℕ) (rows : List Obs)
    (scope : List Var) : Except Exc Net :=
  if scope ≠ [] ∧ rows = [] then .error .runtimeError
  else if ∃ v ∈ scope, ∃ x ∈ rows, cfg.card v ≤ x v then .error .invalidParameter
  else build cfg fit order fuel rows scope

end Verif.CNet

import Verif.Circuit
import Mathlib.Data.List.Sort

/-!
# Model of probabilistic integral circuits and their materialisation (C63)

spflow/zoo/pic/pipeline.py (rg2pic, _merge_units, pic2qpc in "expanded" mode) and spflow/zoo/pic/integral.py.

Simplifications.
* Materialised modules have one feature and one repetition (every input unit is materialised to a module with one
  feature, as for univariate leaf regions); one row at a time.
* Observed scopes are finite sets of variables (`Scope` itself: C01-C05); latent scopes are lists of ids.
* Sharing of units (the dictionary `L`) is invisible: every unit is materialised from its own definition.
* `integral_group_factory` is `None` here; functional sharing groups are modelled in `FnGroup.lean` (C86).
* The region graph is given by its post-order list of regions, children being named by their position in that
  list; the root is the last one.
-/

namespace Verif.PicQ
open Verif

/-- `QuadratureRule`, pipeline.py:53-58, with `K` points and `K` weights (`pic2qpc` raises ShapeError if the lengths
differ, 478-481). -/
structure Rule where
  K : ℕ
  pt : ℕ → ℝ
  wt : ℕ → ℝ

/-- A materialised QPC module (one feature, one repetition).  `leaf`: what `PICInput.materialize` returned, with its
channel count; `wsum q co w`: WeightedSum with weights `w ci co`; `elem`, `outer`: ElementwiseProduct and OuterProduct of
two inputs; `cat`: Cat with dim=2. -/
inductive Q where
  | leaf (xs : Finset Var) (n : ℕ) (ll : Row → ℕ → LogV)
  | wsum (q : Q) (co : ℕ) (w : ℕ → ℕ → ℝ)
  | elem (l r : Q)
  | outer (l r : Q)
  | cat (n : ℕ) (qs : Fin n → Q)

namespace Q

/-- `scope`: weighted_sum.py:77, base_product.py:75, cat.py:55. -/
def scope : Q → Finset Var
  | leaf xs _ _ => xs
  | wsum q _ _ => scope q
  | elem l r => scope l ∪ scope r
  | outer l r => scope l ∪ scope r
  | cat n qs => if h : 0 < n then scope (qs ⟨0, h⟩) else ∅

/-- `out_shape.channels`: weighted_sum.py:119-124; elementwise_product.py:92 (the maximum); outer_product.py:84; cat.py:67. -/
def ch : Q → ℕ
  | leaf _ n _ => n
  | wsum _ co _ => co
  | elem l r => max (ch l) (ch r)
  | outer l r => ch l * ch r
  | cat n qs => (List.ofFn fun i : Fin n => ch (qs i)).sum

/-- Entry `ch` of the log-likelihood: weighted_sum.py:186-205; elementwise_product.py:255-290 (a one-channel input is
broadcast); outer_product.py:236-279 (C order: the left channel is the slow index, see C19); cat.py:105. -/
noncomputable def ll : Q → Row → ℕ → LogV
  | leaf _ _ g, x, c => g x c
  | wsum q _ w, x, o => lse (ch q) fun ci => ll q x ci + logL (w ci o)
  | elem l r, x, c => ll l x (if ch l = 1 then 0 else c) + ll r x (if ch r = 1 then 0 else c)
  | outer l r, x, c => ll l x (c / ch r) + ll r x (c % ch r)
  | cat n qs, x, c => Circ.catCh (List.ofFn fun i : Fin n => (ch (qs i), ll (qs i) x)) c

end Q

/-- Symbolic PIC units.  `input xs z g mat`: an input unit with observed scope `xs`, latent scope `z`, log function
`g x (values of z)` and method `materialize` (channel count and log-likelihood, pipeline.py:61-80).
`sum n us w z`: PICSum (pipeline.py:88); `prod`: PICProduct (150); `integral u z y f`: Integral with latent scope
`z`, integrated latent scope `y` and function `f (values of z) (values of y)`, integral.py:35-70. -/
inductive Pic where
  | input (xs : Finset Var) (z : List ℕ) (g : Row → List ℝ → LogV) (mat : Rule → ℕ × (Row → ℕ → LogV))
  | sum (n : ℕ) (us : Fin n → Pic) (w : Fin n → ℝ) (z : List ℕ)
  | prod (l r : Pic)
  | integral (u : Pic) (z y : List ℕ) (f : Option (List ℝ → List ℝ → ℝ))

/-- The query of `Scope.join_all([z_left, z_right])`: the sorted union (scope.py:203-254). -/
def joinLat (a b : List ℕ) : List ℕ := (a ++ b).dedup.insertionSort (· ≤ ·)

/-- `Scope.__eq__` of two latent scopes (set equality of the queries, scope.py:108-119). -/
def latEq (a b : List ℕ) : Bool := a.all b.contains && b.all a.contains

namespace Pic

/-- `unit.scope`: pipeline.py:111, 163; integral.py:57. -/
def scope : Pic → Finset Var
  | input xs _ _ _ => xs
  | sum n us _ _ => if h : 0 < n then scope (us ⟨0, h⟩) else ∅
  | prod l r => scope l ∪ scope r
  | integral u _ _ _ => scope u

/-- `unit.latent_scope`: pipeline.py:106, 165-167; integral.py:53. -/
def latent : Pic → List ℕ
  | input _ z _ _ => z
  | sum _ _ _ z => z
  | prod l r => joinLat (latent l) (latent r)
  | integral _ z _ _ => z

/-- `PICSum.__init__`, pipeline.py:91-111 (the shape of the weights is right by construction). -/
noncomputable def mkSum (us : List Pic) (w : ℕ → ℝ) (z : List ℕ) : Except Exc Pic := open Classical in do
  if us.length = 0 then throw .invalidParameter
  if ¬ (∀ i < us.length, 0 < w i) then throw .invalidParameter
  if ¬ Circ.CloseToOne (∑ i ∈ Finset.range us.length, w i) then throw .invalidParameter
  if ¬ (∀ u ∈ us, ∀ v ∈ us, u.scope = v.scope) then throw .structureError
  return sum us.length us.get (fun i => w i) z

/-- `PICProduct.__init__`, pipeline.py:153-167. -/
noncomputable def mkProd (l r : Pic) : Except Exc Pic := open Classical in do
  if ¬ Disjoint l.scope r.scope then throw .structureError
  return prod l r

end Pic

/-! ## pic2qpc -/

/-- `grid_points`, pipeline.py:491-500: the rows of the flattened `meshgrid(..., indexing="ij")` (last axis fastest). -/
def gridPts (ρ : Rule) : ℕ → List (List ℝ)
  | 0 => [[]]
  | d + 1 => (List.range ρ.K).flatMap fun i => (gridPts ρ d).map (ρ.pt i :: ·)

/-- `kron_weights`, pipeline.py:502-510: `torch.kron(out, w)` repeated (entry `i * K + j` is `out[i] * w[j]`). -/
noncomputable def kron (ρ : Rule) : ℕ → List ℝ
  | 0 => [1]
  | 1 => (List.range ρ.K).map ρ.wt
  | d + 2 => (kron ρ (d + 1)).flatMap fun a => (List.range ρ.K).map fun j => a * ρ.wt j

/-- `W[i * out_ch + k, o]` of Eq. (4), pipeline.py:589-594. -/
noncomputable def blockW (out : ℕ) (w : ℕ → ℝ) (ci o : ℕ) : ℝ := if ci % out = o then w (ci / out) else 0

/-- `WeightedSum(inputs=q, weights=w)` with a full `(1, ci, co, 1)` tensor (weighted_sum.py:101, 111-117; see C62). -/
noncomputable def mkWSum (q : Q) (co : ℕ) (w : ℕ → ℕ → ℝ) : Except Exc Q := open Classical in
  if ¬ (∀ ci < q.ch, ∀ o < co, 0 ≤ w ci o) then .error .invalidWeights else .ok (.wsum q co w)

/-- `Cat(inputs=children, dim=2)`, cat.py:45-55. -/
noncomputable def mkCat (l : List Q) : Except Exc Q := open Classical in
  if ¬ (∀ a ∈ l, ∀ b ∈ l, a.scope = b.scope) then .error .valueError
  else if l.length = 0 then .error .indexError
  else .ok (.cat l.length l.get)

/-- `_visit` of `pic2qpc(..., mode="expanded")`, pipeline.py:568-672, on a rule whose weights are non-negative. -/
noncomputable def visit (ρ : Rule) : Pic → Except Exc Q
  | .input xs _ _ mat => .ok (.leaf xs (mat ρ).1 (mat ρ).2)
  | .sum n us w _ => do
    let l ← (List.ofFn fun i => visit ρ (us i)).mapM id
    let out := (l.head?.map Q.ch).getD 0
    if l.any (fun q => q.ch != out) then throw .shapeError
    let c ← mkCat l
    mkWSum c out (blockW out fun i => if h : i < n then w ⟨i, h⟩ else 0)
  | .prod l r => open Classical in do
    let ql ← visit ρ l
    let qr ← visit ρ r
    if ¬ Disjoint ql.scope qr.scope then throw .scopeError
    if latEq l.latent r.latent then
      if ¬ ((ql.ch = 1 ∨ ql.ch = max ql.ch qr.ch) ∧ (qr.ch = 1 ∨ qr.ch = max ql.ch qr.ch)) then throw .shapeError
      return .elem ql qr
    else return .outer ql qr
  | .integral u z y f => do
    let q ← visit ρ u
    if q.ch ≠ ρ.K ^ y.length then throw .shapeError
    match f with
    | none => throw .structureError
    | some f =>
      mkWSum q (ρ.K ^ z.length) fun ci co =>
        f ((gridPts ρ z.length).getD co []) ((gridPts ρ y.length).getD ci []) * (kron ρ y.length).getD ci 0

/-- `pic2qpc(pic, rule, mode="expanded")`, pipeline.py:443-484 and 672. -/
noncomputable def pic2qpc (ρ : Rule) (u : Pic) : Except Exc Q := open Classical in
  if ¬ (∀ k < ρ.K, 0 ≤ ρ.wt k) then .error .invalidParameter else visit ρ u

/-! ## rg2pic -/

/-- `MergeStrategy`, pipeline.py:40-50. -/
inductive Strategy
  | auto
  | tucker
  | cp
  deriving DecidableEq

/-- A region: its scope and its partitions, children being positions in the post-order list. -/
structure Region where
  scope : Finset Var
  parts : List (List ℕ)

/-- The arguments of `rg2pic` (pipeline.py:206-214): `leaf i d` gives the function and the `materialize` method of the
input unit that `leaf_factory` returns for region `i` and a latent scope of `d` variables; `fn k zdim ydim` is the function returned by call number `k` of `function_factory`
(`none`: no factory); `sumW n` is the result of `sum_weights_factory` (`none`: uniform). -/
structure Args where
  strategy : Strategy
  leaf : ℕ → ℕ → (Row → List ℝ → LogV) × (Rule → ℕ × (Row → ℕ → LogV))
  fn : Option (ℕ → ℕ → ℕ → List ℝ → List ℝ → ℝ)
  sumW : Option (ℕ → ℕ → ℝ)

/-- Mutable state: next latent id and number of calls of `function_factory` so far. -/
structure St where
  next : ℕ
  calls : ℕ

/-- `alloc_latent` unless at the root, pipeline.py:241-246, 350, 378. -/
def alloc (rho : Bool) (s : St) : List ℕ × St := if rho then ([], s) else ([s.next], { s with next := s.next + 1 })

/-- The merge actually used, pipeline.py:334-337. -/
def chosen (st : Strategy) (z1 z2 : List ℕ) : Strategy :=
  match st with
  | .auto => if latEq z1 z2 then .cp else .tucker
  | c => c

/-- `_merge_units`, pipeline.py:318-406. -/
noncomputable def merge (a : Args) (rho : Bool) (u1 u2 : Pic) (s : St) : Except Exc (Pic × St) := do
  let z1 := u1.latent
  let z2 := u2.latent
  if chosen a.strategy z1 z2 = Strategy.tucker then do
    let p ← Pic.mkProd u1 u2
    let y := p.latent
    let (z, s) := alloc rho s
    let f := a.fn.map fun g => g s.calls z.length y.length
    return (.integral p z y f, { s with calls := s.calls + 1 })
  else do
    if ! latEq z1 z2 then throw .structureError
    if z1.length = 0 then throw .structureError
    let (z, s) := alloc rho s
    let f1 := a.fn.map fun g => g s.calls z.length z1.length
    let f2 := a.fn.map fun g => g (s.calls + 1) z.length z1.length
    let p ← Pic.mkProd (.integral u1 z z1 f1) (.integral u2 z z2 f2)
    return (p, { s with calls := s.calls + 2 })

/-- The fold over `units[1:]`, pipeline.py:283-297: only the last merge of the root is a root merge. -/
noncomputable def foldPart (a : Args) (rho : Bool) : Pic → List Pic → St → Except Exc (Pic × St)
  | cur, [], s => .ok (cur, s)
  | cur, [u], s => merge a rho cur u s
  | cur, u :: v :: us, s => do
    let (cur, s) ← merge a false cur u s
    foldPart a rho cur (v :: us) s

/-- `U[ch]`, pipeline.py:281: the unit of an earlier region (KeyError if it is not there). -/
def lookup (U : List Pic) (i : ℕ) : Except Exc Pic :=
  match U[i]? with
  | some u => .ok u
  | none => .error .keyError

/-- The partitions of a region in order, pipeline.py:273-298. `U` holds the units of the regions before it. -/
noncomputable def parts (a : Args) (rho : Bool) (U : List Pic) : List (List ℕ) → St → Except Exc (List Pic × St)
  | [], s => .ok ([], s)
  | p :: ps, s => do
    if p.length < 2 then throw .structureError
    let units ← p.mapM (lookup U)
    match units with
    | [] => throw .structureError
    | cur :: rest => do
      let (u, s) ← foldPart a rho cur rest s
      let (us, s) ← parts a rho U ps s
      return (u :: us, s)

/-- Weights of a sum of `n` merged partitions, pipeline.py:303-306. -/
noncomputable def sumWeights (a : Args) (n : ℕ) : ℕ → ℝ :=
  match a.sumW with
  | none => fun _ => 1 / (n : ℝ)
  | some g => g n

/-- One iteration of the loop over `rg.post_order()`, pipeline.py:261-313; `i` is the position of the region. -/
noncomputable def region (a : Args) (rho : Bool) (i : ℕ) (X : Region) (U : List Pic) (s : St) :
    Except Exc (Pic × St) := do
  if X.parts.isEmpty then
    let (z, s) := alloc rho s
    return (.input X.scope z (a.leaf i z.length).1 (a.leaf i z.length).2, s)
  else
    let (ms, s) ← parts a rho U X.parts s
    match ms with
    | [m] => return (m, s)
    | [] => throw .indexError
    | m :: ms =>
      if ms.any (fun v => ! latEq v.latent m.latent) then throw .structureError
      let u ← Pic.mkSum (m :: ms) (sumWeights a (ms.length + 1)) m.latent
      return (u, s)

/-- The loop: units of the processed regions in order. -/
noncomputable def loop (a : Args) : List Region → List Pic → St → Except Exc (List Pic)
  | [], U, _ => .ok U
  | X :: Xs, U, s => do
    let (u, s) ← region a Xs.isEmpty U.length X U s
    loop a Xs (U ++ [u]) s

/-- `rg2pic(rg, ...)`, pipeline.py:206-315. `base` is `max_obs + 1`, the first latent id. -/
noncomputable def rg2pic (a : Args) (base : ℕ) (rg : List Region) : Except Exc Pic := do
  let U ← loop a rg [] ⟨base, 0⟩
  match U.getLast? with
  | some u => return u
  | none => throw .keyError

end Verif.PicQ

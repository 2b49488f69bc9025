import Verif.Circuit

/-!
# Model of structural `marginalize`

leaf.py:1074-1119 (base class), cat.py:180-223, product.py:141-186, sum.py:436-521.

The list `marg_rvs` is `M`.  Simplifications: the per-repetition feature mask of Sum (sum.py:473-512) is computed
once because `feature_to_scope` does not depend on the repetition for these modules; the loop removing the mutual
variables one by one (sum.py:476-480) is set difference.
-/

namespace Verif
namespace Circ

/-- Positions kept by the leaf, leaf.py:1098-1100. -/
def keepIdx (M : List Var) (q : List Var) : List ℕ :=
  (List.range q.length).filter fun i => !M.contains (q.getD i 0)

/-- `LeafModule.marginalize`, leaf.py:1074-1119: the surviving variables with their own parameter rows. -/
def margLeaf (M : List Var) (q : List Var) (C R : ℕ) (d : ℕ → ℕ → ℕ → ℝ → LogV) : Option Circ :=
  let q' := q.filter fun v => !M.contains v
  if q'.isEmpty then none
  else some (leaf q' C R fun k => d ((keepIdx M q).getD k 0))

/-- Results of marginalising the inputs in order; the first exception propagates; `None`s are dropped
(cat.py:206-211). -/
def collect : List (Except Exc (Option Circ)) → Except Exc (List Circ)
  | [] => .ok []
  | a :: l => do
    let o ← a
    let rest ← collect l
    return match o with
      | some c => c :: rest
      | none => rest

/-- `set(scope.query) & set(marg_rvs)` is non-empty. -/
def touches (M : List Var) (s : Scope) : Bool := s.query.any M.contains

/-- `len(mutual_rvs) == len(scope.query)` (product.py:164, sum.py:460). -/
def covers (M : List Var) (s : Scope) : Bool := s.query.all M.contains

/-- End of `Cat.marginalize`, cat.py:213-221. -/
def finishCat (dim : Int) (prune : Bool) (l : List Circ) : Except Exc (Option Circ) :=
  match l with
  | [] => .ok none
  | [c] => if prune then .ok (some c) else do return some (← mkCat dim [c])
  | l => do return some (← mkCat dim l)

/-- End of `Product.marginalize`, product.py:180-186. -/
def finishProd (prune : Bool) (o : Option Circ) : Option Circ :=
  match o with
  | none => none
  | some c => if prune && c.F == 1 then some c else some (prod c)

/-- Features of `c` whose scope survives (the mask of sum.py:483-485). -/
noncomputable def keepFeat (M : List Var) (c : Circ) : List ℕ :=
  (List.range c.F).filter fun f => !(c.fscope f ⊆ M.toFinset)

/-- `module.marginalize(marg_rvs, prune)`: exception, `None`, or a module. -/
noncomputable def marg (M : List Var) (prune : Bool) : Circ → Except Exc (Option Circ)
  | leaf q C R d => .ok (margLeaf M q C R d)
  | cat1 n cs =>
    if touches M (scope (cat1 n cs)) then do
      finishCat 1 prune (← collect (List.ofFn fun i : Fin n => marg M prune (cs i)))
    else .ok (some (cat1 n cs))
  | cat2 n cs =>
    if touches M (scope (cat2 n cs)) then do
      finishCat 2 prune (← collect (List.ofFn fun i : Fin n => marg M prune (cs i)))
    else .ok (some (cat2 n cs))
  | prod c =>
    if covers M (scope c) then .ok none
    else if touches M (scope c) then do return finishProd prune (← marg M prune c)
    else .ok (finishProd prune (some c))
  | sum c Co R θ =>
    if covers M (scope c) then .ok none
    else if touches M (scope c) then do
      match ← marg M prune c with
      | none => return none
      | some c' =>
        return some (← mkSum [c'] ⟨(keepFeat M c).length, C c, Co, R,
          fun f ci co r => weight c θ ((keepFeat M c).getD f 0) ci co r⟩)
    else do
      return some (← mkSum [c] ⟨F c, C c, Co, R, fun f ci co r => weight c θ f ci co r⟩)

end Circ
end Verif

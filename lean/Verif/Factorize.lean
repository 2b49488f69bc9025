import Verif.Routing
/-
Model of Factorize (C20, C52): spflow/modules/rat/factorize.py.

Randomness is a parameter: `sizes` is the outcome of `np.random.shuffle(group_sizes)` (any permutation)
and `perm` the outcome of `torch.randperm` for one repetition (any permutation of the features). The
properties quantify over all of them. The indicator matrix of one repetition is a Boolean function
`(input feature, output feature)`.
-/
namespace Verif.Fact

/-- `group_sizes` before the shuffle (factorize.py:130-134). -/
def groupSizes (F n : Nat) : List Nat :=
  (List.range n).map fun i => if i < F - F / n * n then F / n + 1 else F / n

/-- The loop over output features (factorize.py:139-147): `ids[low:high]` with `high` replaced by
`num_features` for the last one; the list of groups from output feature `o` on. -/
def groupsFrom (perm : List Nat) (F n : Nat) : Nat → Nat → List Nat → List (List Nat)
  | _, _, [] => []
  | o, off, s :: ss =>
    let high := if o = n - 1 then F else off + s
    ((perm.take high).drop off) :: groupsFrom perm F n (o + 1) (off + s) ss

/-- `_factorize(depth, num_repetitions)` for one repetition (factorize.py:112-149): StructureError if
there are too few features, otherwise the groups `idxs[low:high]`; `indices[i, o] = 1` iff `i` is in
group `o`. -/
def factorize (F depth : Nat) (sizes perm : List Nat) : Except Exc (List (List Nat)) :=
  if F < 2 ^ depth then .error .structureError
  else .ok (groupsFrom perm F (2 ^ depth) 0 0 sizes)

/-- Entry of the buffer `indices` (factorize.py:64-68, 147). -/
def indicator (groups : List (List Nat)) (i o : Nat) : Nat :=
  if (groups.getD o []).contains i then 1 else 0

/-- `sampling_indices.argmax(dim=1)` (factorize.py:69-72): the first maximal entry of the row. -/
def owner (groups : List (List Nat)) (i : Nat) : Nat :=
  (List.range groups.length).foldl (fun best o => if indicator groups i best < indicator groups i o then o else best) 0

/-- `feature_to_scope` (factorize.py:78-96): the scopes joined for output feature `o`. -/
def reportedScopes {α : Type} (groups : List (List Nat)) (F : Nat) (scopes : Nat → α) (o : Nat) : List α :=
  ((List.range F).filter fun i => 0 < indicator groups i o).map scopes

/-- `torch.einsum("bicr, ior->bocr", lls, indices)` at one (b, o, c, r) (factorize.py:172): IEEE
arithmetic with `-inf * 0 = NaN` (`none`), Routing.lean. -/
noncomputable def logLik (groups : List (List Nat)) (F : Nat) (lls : Nat → LogV) (o : Nat) : Option LogV :=
  Routing.fsum ((List.range F).map fun i => Routing.fmul (lls i) (indicator groups i o))

/-- `_route_sampling_integer` for one row (factorize.py:219-224): input feature `i` gets the request of
its owner. -/
def routeInt {α : Type} (groups : List (List Nat)) (F : Nat) (req : Nat → α) : List α :=
  (List.range F).map fun i => req (owner groups i)

/-- The mask part of `_route_sampling_differentiable` (factorize.py:226-252): `Σ_o ind[i,o] * mask[o] > 0`. -/
def routeMaskDiff (groups : List (List Nat)) (F : Nat) (mask : Nat → Bool) : List Bool :=
  (List.range F).map fun i =>
    decide (0 < ((List.range groups.length).map fun o => indicator groups i o * (mask o).toNat).sum)

/-- Result of `Factorize.marginalize`: `None`, the child itself, or a new layer with its groups. -/
inductive Marg | none | child | layer (groups : List (List Nat))
  deriving DecidableEq

/-- `Factorize.marginalize` (factorize.py:262-309): `Fchild` is the number of features of the
marginalised child (of the child itself if no variable of the scope is marginalised); the new layer is
built by the constructor, i.e. with newly drawn `sizes` and `perm`, not from the old groups. -/
def marginalize (query marg : List Nat) (Fchild depth : Nat) (prune : Bool) (sizes perm : List Nat) :
    Except Exc Marg :=
  if query.all (marg.contains ·) then .ok .none
  else if prune ∧ Fchild = 1 then .ok .child
  else (factorize Fchild depth sizes perm).map .layer

end Verif.Fact

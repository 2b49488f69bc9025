import Verif.Scope
/-
Model of the Split operations (C17, C18): spflow/modules/ops/split.py, split_consecutive.py,
split_interleaved.py, split_by_index.py, and of the routing of the products over a split
(products/elementwise_product.py, products/outer_product.py). A tensor is modelled by the list of
its slices along the feature axis (dim=1, the default); batch, channel and repetition axes are inside
the elements.
-/
namespace Verif.Split
variable {α : Type}

/-! ### SplitConsecutive -/

/-- `Tensor.split(size, dim)`: consecutive chunks of `size`, the last one possibly smaller; torch
raises for size 0 on a non-empty axis. -/
def torchSplit (size : Nat) (xs : List α) : Except Exc (List (List α)) :=
  if size = 0 then (if xs.isEmpty then .ok [[]] else .error .runtimeError) else .ok (go size xs xs.length)
where
  /-- fuel is the length of the list: every chunk is non-empty -/
  go (size : Nat) : List α → Nat → List (List α)
    | [], _ => []
    | _, 0 => []
    | x :: xs, n + 1 => (x :: xs).take size :: go size ((x :: xs).drop size) n

/-- `SplitConsecutive.log_likelihood` (split_consecutive.py:62-79). -/
def splitConsecutive (n : Nat) (xs : List α) : Except Exc (List (List α)) :=
  torchSplit (xs.length / n) xs

/-- `SplitConsecutive.merge_split_tensors` / `merge_split_indices` (split_consecutive.py:81-90). -/
def mergeConsecutive (ys : List (List α)) : Except Exc (List α) := .ok ys.flatten

/-! ### SplitInterleaved -/

/-- `lls[:, i::n]`, equivalently selection by `split_masks[i]` (split_interleaved.py:54-58, 97-105). -/
def strided (n i : Nat) (xs : List α) : List α :=
  ((List.range xs.length).filter (fun j => j % n = i)).filterMap (xs[·]?)

/-- `SplitInterleaved.log_likelihood` (split_interleaved.py:82-105); with one split the input is
returned as it is, which is `strided 1 0`. -/
def splitInterleaved (n : Nat) (xs : List α) : List (List α) :=
  (List.range n).map fun i => strided n i xs

/-- `merge_split_tensors` / `merge_split_indices` (split_interleaved.py:107-118): `torch.stack`
needs equal shapes, then `b f split -> b (f split)`. -/
def mergeInterleaved (ys : List (List α)) : Except Exc (List α) :=
  match ys with
  | [] => .error .runtimeError
  | y :: _ =>
    if ys.all (fun z => z.length = y.length) then
      .ok ((List.range y.length).flatMap fun f => ys.filterMap (·[f]?))
    else .error .runtimeError

/-! ### SplitByIndex -/

/-- `_validate_indices` (split_by_index.py:75-96); `len(all) != len(set(all))` is `¬ Nodup`, and the
coverage test is reduced to "every feature occurs" since all indices are in bounds. -/
def validateIndices (F : Nat) (groups : List (List Int)) : Except Exc (List (List Nat)) :=
  let all := groups.flatten
  if all.any (fun i => i < 0 ∨ (F : Int) ≤ i) then .error .valueError
  else if ¬ all.Nodup then .error .valueError
  else if ¬ (List.range F).all (fun j => all.contains (j : Int)) then .error .valueError
  else .ok (groups.map (·.map Int.toNat))

/-- `SplitByIndex.log_likelihood`: `index_select` per group (split_by_index.py:144-166). -/
def splitByIndex (groups : List (List Nat)) (xs : List α) : List (List α) :=
  groups.map fun g => g.filterMap (xs[·]?)

/-- The pairs `(offset + pos, orig_idx)` that the loops of `_compute_inverse_order`
(split_by_index.py:98-112) and `merge_split_indices` (197-201) run through. -/
def positions : Nat → List (List Nat) → List (Nat × Nat)
  | _, [] => []
  | off, g :: gs => (List.range g.length).filterMap (fun p => (g[p]?).map fun o => (off + p, o))
      ++ positions (off + g.length) gs

/-- `_compute_inverse_order` (split_by_index.py:98-112). -/
def inverseOrder (F : Nat) (groups : List (List Nat)) : List Nat :=
  (positions 0 groups).foldl (fun inv po => inv.set po.2 po.1) (List.replicate F 0)

/-- `merge_split_tensors` (split_by_index.py:205-209): concatenate and `index_select`. -/
def mergeTensorsByIndex (F : Nat) (groups : List (List Nat)) (ys : List (List α)) : Except Exc (List α) :=
  (inverseOrder F groups).mapM fun i => match ys.flatten[i]? with
    | some v => .ok v
    | none => .error .indexError

/-- `merge_split_indices` (split_by_index.py:168-203): scatter into zeros. -/
def mergeIndicesByIndex (zero : α) (F : Nat) (groups : List (List Nat)) (ys : List (List α)) :
    Except Exc (List α) :=
  (positions 0 groups).foldlM (fun res po => match ys.flatten[po.1]? with
    | some v => .ok (res.set po.2 v)
    | none => .error .indexError) (List.replicate F zero)

/-! ### Products over a split -/

/-- How a product over a split routes the sampling request of its output features to the input
features: `b f -> b i f -> b (i f)` for SplitConsecutive (elementwise_product.py:203-205,
outer_product.py:181-183), where `req f i` is the channel requested from split `i` by output
feature `f`. -/
def routeConsecutive (n L : Nat) (req : Nat → Nat → α) : List α :=
  (List.range n).flatMap fun i => (List.range L).map fun f => req f i

/-- `b f i -> b (f i)` for SplitInterleaved (elementwise_product.py:206-208, outer_product.py:184-185). -/
def routeInterleaved (n L : Nat) (req : Nat → Nat → α) : List α :=
  (List.range L).flatMap fun f => (List.range n).map fun i => req f i

/-- `np.array(rows).reshape(rows', cols')[f, s]` for a matrix given by its rows, in C order. -/
def reshapeAt (rows : List (List α)) (cols' f s : Nat) : Option α := rows.flatten[f * cols' + s]?

/-- `SplitConsecutive.feature_to_scope[f, s, r]` (split_consecutive.py:46-60) for input feature
scopes `scopes` (of one repetition). -/
def scopeConsecutive (n : Nat) (scopes : List α) (f s : Nat) : Option α :=
  let c := scopes.length / n
  reshapeAt ((List.range n).map fun i => (scopes.drop (i * c)).take c) n f s

/-- `SplitInterleaved.feature_to_scope[f, s, r]` (split_interleaved.py:63-80). -/
def scopeInterleaved (n : Nat) (scopes : List α) (f s : Nat) : Option α :=
  reshapeAt ((List.range n).map fun i => strided n i scopes) n f s

/-- `SplitByIndex.feature_to_scope[f, s, r]` (split_by_index.py:122-142): the rows are transposed;
`none` is the padding -1. -/
def scopeByIndex (groups : List (List Nat)) (scopes : List α) (f s : Nat) : Option α :=
  (groups[s]?).bind fun g => (g[f]?).bind fun j => scopes[j]?

/-- The scopes that `ElementwiseProduct.feature_to_scope` joins for output feature `f` when its
input is a split (elementwise_product.py:163-187). -/
def reported (n : Nat) (scopeAt : Nat → Nat → Option α) (f : Nat) : List α :=
  (List.range n).filterMap fun s => scopeAt f s

/-- The input features (or their scopes) that `ElementwiseProduct.log_likelihood` sums into output
feature `f`: entry `f` of every split tensor (elementwise_product.py:255-290). -/
def multiplied (splits : List (List α)) (f : Nat) : List α := splits.filterMap (·[f]?)

/-- `OuterProduct.feature_to_scope` for a list of input modules (outer_product.py:126-145): the
cartesian product of the inputs' feature scopes (joined by the caller), one entry per tuple. -/
def outerReported : List (List α) → List (List α)
  | [] => [[]]
  | l :: ls => l.flatMap fun a => (outerReported ls).map (a :: ·)

end Verif.Split

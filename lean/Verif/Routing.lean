import Verif.Sampling

/-!
# Model of column resolution and one-hot routing

spflow/modules/leaves/leaf.py:1011-1037 (`_resolve_scope_columns`), module.py:145-173 (`_prepare_sample_data`),
utils/sampling_context.py:713-732 (differentiable `route_channel_offsets`), 958-1008 (`to_one_hot`),
1084-1145 (`index_one_hot`, `index_tensor`).
-/

namespace Verif
namespace Routing

/-- `_resolve_scope_columns(num_features=W)` for a leaf with query `q` (`out_shape.features = len q`),
leaf.py:1023-1037. -/
def resolveColumns (q : List Int) (W : ℕ) : Except Exc (List ℕ) :=
  if q.length = 0 then .ok []
  else if q.all (fun rv => decide (0 ≤ rv) && decide (rv < W)) then .ok (q.map Int.toNat)
  else if W = q.length then .ok (List.range W)
  else .error .shapeError

/-- Columns `log_likelihood` reads, leaf.py:432 `data[:, self.scope.query]`: torch raises IndexError if an id is not
below the width (queries have no negative ids). -/
def likelihoodColumns (q : List Int) (W : ℕ) : Except Exc (List ℕ) :=
  if q.all (fun rv => decide (0 ≤ rv) && decide (rv < W)) then .ok (q.map Int.toNat) else .error .indexError

/-- Width of the tensor `sample(num_samples=n)` allocates, module.py:168-171. -/
def allocatedWidth (scopeQuery : List Int) : ℕ := scopeQuery.length

/-! ## One-hot indices -/

/-- `to_one_hot(index, dim, dim_size)` for one index value, sampling_context.py:958-1008. -/
def toOneHot (k : Int) (n : ℕ) : Except Exc (ℕ → ℝ) :=
  if n < 1 then .error .invalidParameter
  else if k < 0 ∨ (n : Int) ≤ k then .error .invalidParameter
  else .ok fun i => if i = k.toNat then 1 else 0

/-- IEEE product of a tensor entry (real or `-inf`) with a non-negative real: `-inf * 0` is NaN (`none`). -/
noncomputable def fmul (x : LogV) (b : ℝ) : Option LogV :=
  match x with
  | none => if b = 0 then none else some ⊥
  | some y => some ((y * b : ℝ) : LogV)

/-- IEEE sum: NaN absorbs. -/
noncomputable def fsum : List (Option LogV) → Option LogV
  | [] => some 0
  | none :: _ => none
  | some x :: rest => (fsum rest).map (x + ·)

/-- `index_one_hot(tensor, index, dim)` for one fibre of length `n`: `sum(tensor * index)`, sampling_context.py:1084-1120. -/
noncomputable def indexOneHot (n : ℕ) (t : ℕ → LogV) (hot : ℕ → ℝ) : Option LogV :=
  fsum ((List.range n).map fun i => fmul (t i) (hot i))

/-- `index_tensor(..., is_differentiable=False)`: gather, sampling_context.py:1141-1145. -/
def gather (n : ℕ) (t : ℕ → LogV) (k : ℕ) : Except Exc LogV := if k < n then .ok (t k) else .error .runtimeError

/-- Loop of the differentiable `route_channel_offsets` at one position, sampling_context.py:713-732:
(local one-hot, mask) per child; `clamp_min(eps)` has no effect on masses 0 and 1 and is omitted. -/
noncomputable def routeHotLoop (hot : ℕ → ℝ) (mask : Bool) : ℕ → List ℕ → List ((ℕ → ℝ) × Bool)
  | _, [] => []
  | off, k :: ks =>
    let mass := ∑ i ∈ Finset.range k, hot (off + i)
    (fun i => if i < k then (open Classical in if 0 < mass then hot (off + i) / mass else 0) else 0,
     (open Classical in decide (0 < mass)) && mask) :: routeHotLoop hot mask (off + k) ks

end Routing
end Verif

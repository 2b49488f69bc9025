import Verif.Splits
/-
Model of OuterProduct (C19): spflow/modules/products/outer_product.py.

One batch row, one feature and one repetition at a time: the input is the list, over the inputs (or
splits), of the vectors of channel values.
-/
namespace Verif.Outer
variable {α : Type}

/-- `list(product(*[list(range(count)) for count in counts]))` (outer_product.py:68-70), the buffer
`unraveled_channel_indices`; `itertools.product` lets the last factor run fastest. -/
def unravelTable : List Nat → List (List Nat)
  | [] => [[]]
  | n :: ns => (List.range n).flatMap fun i => (unravelTable ns).map (i :: ·)

/-- One step of the loop in `log_likelihood`: `output.unsqueeze(3) + lls[i].unsqueeze(2)` followed by the
`view` that flattens the two channel axes in C order (outer_product.py:263-266). -/
def outerStep [Add α] (acc x : List α) : List α := acc.flatMap fun a => x.map fun b => a + b

/-- `OuterProduct.log_likelihood` (outer_product.py:236-279). -/
def outerLL [Add α] : List (List α) → List α
  | [] => []
  | x :: xs => xs.foldl outerStep x

/-- `out_shape.channels` (outer_product.py:84-86). -/
def outChannels (counts : List Nat) : Nat := (unravelTable counts).length

/-- `map_out_channels_to_in_channels` for several inputs and integer routing
(outer_product.py:158-168) followed by the loop of `BaseProduct._sample` (base_product.py:127-160): the
channel handed to input `i`; torch raises for an index beyond the table, and a one-channel input always
gets channel 0. -/
def routeInt (counts : List Nat) (o : Nat) : Except Exc (List Nat) :=
  match (unravelTable counts)[o]? with
  | none => .error .indexError
  | some idx => .ok ((counts.zip idx).map fun p => if p.1 = 1 then 0 else p.2)

/-- A one-hot row `F.one_hot(k, num_classes=n)`. -/
def oneHot (n k : Nat) : List Nat := (List.range n).map fun j => if j = k then 1 else 0

/-- `output_ids @ one_hot(table[:, i])` for one input (outer_product.py:176-180): entry `c` is the sum
over the output channels of `output_ids[o] * [table[o][i] = c]`. -/
def routeHot (counts : List Nat) (ids : List Nat) (i : Nat) : List Nat :=
  (List.range (counts.getD i 0)).map fun c =>
    ((unravelTable counts).zip ids).foldl (fun acc p => acc + (if p.1.getD i 0 = c then p.2 else 0)) 0

end Verif.Outer

import Verif.Rat

/-!
# Model of Einet

spflow/zoo/einet/einet.py on top of the layers of `Verif.Rat`.
-/

namespace Verif.Rat

open Verif.Circ

/-- The string `layer_type`. -/
inductive Layer | einsum | linsum | other
  deriving DecidableEq

/-- The string `structure`. -/
inductive Struct | topDown | bottomUp | other
  deriving DecidableEq

/-- Arguments of `Einet`, einet.py:60-70 (`leaves` is `num_leaves`). -/
structure EArgs where
  classes : ℕ
  sums : ℕ
  leaves : ℕ
  depth : ℤ
  R : ℕ
  layer : Layer
  struct : Struct

/-- What the constructor draws: shuffled group sizes and permutations of Factorize, the initial logits of every layer -
`We k`/`Wl k` of the layer with `k` layers above it, `W0` of the Sum for depth 0, `Wc` of the Sum in `_finalize_root` - and
the contraction schedule of every `torch.einsum`. -/
structure Draws where
  sizes : List ℕ
  perms : ℕ → List ℕ
  path : ℕ → Einsum.Path
  We : ℕ → ℕ → ℕ → ℕ → ℕ → ℕ → LogV
  Wl : ℕ → ℕ → ℕ → ℕ → ℕ → LogV
  W0 : ℕ → ℕ → ℕ → ℕ → LogV
  Wc : ℕ → ℕ → ℕ → ℕ → LogV
  wmix : ℕ → ℕ → LogV
  wroot : ℕ → LogV

/-- `EinsumLayer(inputs=n, out_channels=Co, ...)` / `LinsumLayer(...)` with one input: einsum_layer.py:110-140,
linsum_layer.py:112-140; einet.py:137-142 picks the class. -/
def addLayer (l : Layer) (Co : ℕ) (d : Draws) (k : ℕ) (n : Net) : Except Exc Net :=
  if n.F < 2 then .error .valueError
  else if n.F % 2 ≠ 0 then .error .valueError
  else if Co < 1 then .error .valueError
  else if l = .einsum then .ok (.einsum n Co (d.path k) (d.We k))
  else .ok (.linsum n Co (d.Wl k))

/-- `depth` layers, the last of which has `top` output channels: einet.py:220-234, 266-275. -/
def eLayers (l : Layer) (top mid : ℕ) (d : Draws) : ℕ → Net → Except Exc Net
  | 0, n => .ok n
  | k + 1, n => do
    let p ← addLayer l (if k = 0 then top else mid) d k n
    eLayers l top mid d k p

/-- `_finalize_root`, einet.py:144-171. -/
def finalize (a : EArgs) (d : Draws) (collapse : Bool) (n : Net) : Model :=
  let n1 := if collapse = true ∧ 1 < n.F then Net.collapse n else n
  let n2 := if n1.C ≠ a.classes then Net.sum n1 a.classes d.Wc else n1
  ⟨n2, if 1 < a.R then some d.wmix else none, if 1 < a.classes then some d.wroot else none⟩

/-- `_build_structure_top_down`, einet.py:173-249. -/
def buildTopDown (leaves : List Circ) (a : EArgs) (d : Draws) : Except Exc Model := do
  let f ← addFact leaves a.depth.toNat a.R d.sizes d.perms
  if a.depth.toNat = 0 then return finalize a d false (.sum f a.classes d.W0)
  let n ← eLayers a.layer a.classes a.sums d a.depth.toNat f
  return finalize a d false n

/-- `_build_structure_bottom_up`, einet.py:251-296; `nf` is `num_features`.  Simplification: `int(np.log2(nf))` is the exact
integer logarithm (true in double precision for every width below 2^48).  The buffer `permutation` is never used. -/
def buildBottomUp (leaves : List Circ) (a : EArgs) (d : Draws) (nf : ℕ) : Except Exc Model := do
  let f ← addFact leaves (if 1 < nf then Nat.log 2 nf else 0) a.R d.sizes d.perms
  let n ← eLayers a.layer a.sums a.sums d a.depth.toNat f
  if a.depth.toNat = 0 then return finalize a d true (.sum f a.sums d.W0)
  return finalize a d true n

/-- `Einet.__init__`, einet.py:60-135, for a non-empty list of leaves (for an empty one the message of the last check itself
overflows). -/
def buildEinet (leaves : List Circ) (a : EArgs) (d : Draws) : Except Exc Model := do
  if a.classes < 1 then throw .invalidParameter
  if a.sums < 1 then throw .invalidParameter
  if a.leaves < 1 then throw .invalidParameter
  if a.depth < 0 then throw .invalidParameter
  if a.R < 1 then throw .invalidParameter
  if a.layer = .other then throw .invalidParameter
  if a.struct = .other then throw .invalidParameter
  let s ← Scope.joinAll (leaves.map scope)
  if s.query.length < 2 ^ a.depth.toNat then throw .invalidParameter
  if a.struct = .topDown then buildTopDown leaves a d
  else buildBottomUp leaves a d s.query.length

/-- `_has_partial_evidence(data)`, einet.py:376-379, for a batch with columns `0, ..., w - 1`. -/
def partialEvidence (w : ℕ) (batch : List Row) : Bool :=
  batch.any (fun y => (List.range w).any fun i => (y i).isNone) && batch.any (fun y => (List.range w).any fun i => (y i).isSome)

/-- Row `y` of `Einet.sample(data=batch)`, einet.py:381-472: with partial evidence anywhere in the batch the log-likelihoods are
computed first and conditioned on. -/
noncomputable def Model.einetSample (m : Model) (w : ℕ) (batch : List Row) (y : Row) : Prog Row :=
  if partialEvidence w batch then m.sampleWithEvidence y else m.sample none y

end Verif.Rat

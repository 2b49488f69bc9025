import Verif.Mst
import Verif.LogSpace
import Mathlib.Analysis.SpecialFunctions.Log.Basic

/-!
# Model of the mutual information utilities of the Chow-Liu learners

Files modelled: spflow/zoo/hclt/mi.py (all of it) and spflow/zoo/hclt/chow_liu.py.

Simplifications: exact reals instead of floats; a data entry is a finite real or NaN (`none`), a sample weight is a finite
real or not finite (`none`); `data` is two-dimensional (else ShapeError, mi.py:47-48, 155-156).  `torch.log` is
`Real.log`.  Matrix entries are indexed by `Fin f`, the last axis of the binary tables by 0, 1, 2, 3 for 00, 01, 10, 11.
-/

namespace Verif.Mi

open Verif.Span (Edge)

variable {f : ℕ}

/-- One row of data. -/
abbrev Rec (f : ℕ) := Fin f → Option ℝ

/-! ## Sample weights -/

/-- The check of `weights`, mi.py:64-68 and 184-188: one finite weight per row. -/
def readWeights (N : ℕ) : List (Option ℝ) → Except Exc (List ℝ)
  | ws => if ws.length ≠ N then .error .shapeError
    else if ws.any Option.isNone then .error .invalidParameter
    else .ok (ws.map fun w => w.getD 0)

/-! ## Binary data -/

/-- `(data != 0)` as a number, mi.py:53-54.  NaN is not equal to 0. -/
noncomputable def bit (c : Option ℝ) : ℝ := open Classical in if c = some 0 then 0 else 1

/-- `A.t().matmul(B * w)` for the indicator matrices, mi.py:78-80: entry (i, j). -/
noncomputable def matmul (data : List (Rec f)) (w : List ℝ) (a b : Option ℝ → ℝ) (i j : Fin f) : ℝ :=
  ((data.zip w).map fun p => a (p.1 i) * (b (p.1 j) * p.2)).sum

/-- `pairwise_marginal_binary` from the counts on, mi.py:77-104. -/
noncomputable def tableBinary (data : List (Rec f)) (w : List ℝ) (pc : ℝ) (i j : Fin f) (s : ℕ) : ℝ :=
  let no : Option ℝ → ℝ := fun c => 1 - bit c
  let c11 := matmul data w bit bit i j
  let c10 := matmul data w bit no i j
  let c01 := matmul data w no bit i j
  let c00 := max (w.sum - c11 - c10 - c01) 0
  let add := pc / 4
  let joint := (if s = 0 then c00 else if s = 1 then c01 else if s = 2 then c10 else c11) + add
  (if i = j then (if s = 0 ∨ s = 3 then joint + add else 0) else joint) / (w.sum + pc)

/-- Weights, mi.py:59-70. -/
noncomputable def binWeights (N : ℕ) : Option (List (Option ℝ)) → Except Exc (List ℝ)
  | none => .ok (List.replicate N 1)
  | some ws => readWeights N ws

/-- `pairwise_marginal_binary`, mi.py:25-104. -/
noncomputable def marginalBinary (data : List (Rec f)) (weights : Option (List (Option ℝ))) (pc : ℝ) :
    Except Exc (Fin f → Fin f → ℕ → ℝ) := open Classical in do
  if pc < 0 then throw .invalidParameter
  let w ← binWeights data.length weights
  if w.sum + pc ≤ 0 then throw .invalidParameter
  return tableBinary data w pc

/-- `xlogy(p, q)`, mi.py:132-136; `xlogx(p)` is `xlogy(p, p)`. -/
noncomputable def xlogy (eps p q : ℝ) : ℝ := open Classical in if p = 0 then 0 else p * Real.log (max q eps)

/-- The products of the marginals, mi.py:121-128: `p0`, `p1` are the diagonals. -/
noncomputable def prodBinary (pxy : Fin f → Fin f → ℕ → ℝ) (i j : Fin f) (s : ℕ) : ℝ :=
  pxy i i (if s = 0 ∨ s = 1 then 0 else 3) * pxy j j (if s = 0 ∨ s = 2 then 0 else 3)

/-- `pairwise_mi_binary`, mi.py:107-139. -/
noncomputable def miBinary (data : List (Rec f)) (weights : Option (List (Option ℝ))) (pc eps : ℝ) :
    Except Exc (Fin f → Fin f → ℝ) := do
  let pxy ← marginalBinary data weights pc
  return fun i j => ∑ s ∈ Finset.range 4, (xlogy eps (pxy i j s) (pxy i j s) - xlogy eps (pxy i j s) (prodBinary pxy i j s))

/-! ## Categorical data -/

/-- `.to(torch.long)`, mi.py:170: truncation towards zero. -/
noncomputable def trunc (t : ℝ) : ℤ := if 0 ≤ t then ⌊t⌋ else ⌈t⌉

/-- The integer matrix; NaN has been rejected before (mi.py:168-170). -/
noncomputable def toLong (data : List (Rec f)) : List (Fin f → ℤ) := data.map fun x i => trunc ((x i).getD 0)

/-- All entries, row by row. -/
def entries {α : Type} (data : List (Fin f → α)) : List α := data.flatMap fun x => List.ofFn x

/-- `num_cats`, mi.py:172-173. -/
def numCats (x : List (Fin f → ℤ)) : Option ℤ → ℤ
  | some K => K
  | none => if (entries x).isEmpty then 0 else (entries x).foldr max ((entries x).headD 0) + 1

/-- Single-variable marginals, mi.py:197-205. -/
noncomputable def single (x : List (Fin f → ℤ)) (w : List ℝ) (pc Z : ℝ) (K : ℕ) (i : Fin f) (k : ℕ) : ℝ :=
  (((x.zip w).map fun p => p.2 * (if p.1 i = (k : ℤ) then 1 else 0)).sum + pc / K) / Z

/-- `torch.bincount(flat, weights)`, mi.py:235: entry `c`. -/
noncomputable def bincount (flat : List (ℤ × ℝ)) (c : ℕ) : ℝ := ((flat.filter fun p => decide (p.1 = (c : ℤ))).map Prod.snd).sum

/-- The flattened codes of a batch of pairs with their weights, mi.py:225-234. -/
def flatCodes (x : List (Fin f → ℤ)) (w : List ℝ) (K : ℕ) (batch : List (Edge f)) : List (ℤ × ℝ) :=
  (x.zip w).flatMap fun p => batch.zipIdx.map fun q => (p.1 q.1.1 * K + p.1 q.1.2 + q.2 * (K * K : ℕ), p.2)

/-- Joint probabilities of the `b`-th pair of a batch, mi.py:235-240. -/
noncomputable def jointCat (x : List (Fin f → ℤ)) (w : List ℝ) (pc Z : ℝ) (K : ℕ) (batch : List (Edge f)) (b k l : ℕ) : ℝ :=
  (bincount (flatCodes x w K batch) (b * (K * K) + k * K + l) + pc / (K * K : ℕ)) / Z

/-- Mutual information of the `b`-th pair (i, j) of a batch, mi.py:241-245. -/
noncomputable def miPair (x : List (Fin f → ℤ)) (w : List ℝ) (pc Z eps : ℝ) (K : ℕ) (batch : List (Edge f)) (b : ℕ) (i j : Fin f) : ℝ :=
  ∑ k ∈ Finset.range K, ∑ l ∈ Finset.range K, jointCat x w pc Z K batch b k l *
    (Real.log (max (jointCat x w pc Z K batch b k l) eps) - Real.log (max (single x w pc Z K i k) eps) -
      Real.log (max (single x w pc Z K j l) eps))

/-- `torch.triu_indices(f, f, offset=1)`, mi.py:214. -/
def triu (f : ℕ) : List (Edge f) :=
  (List.finRange f).flatMap fun i => ((List.finRange f).filter fun j => decide (i < j)).map fun j => (i, j)

/-- The batches, mi.py:221-224. -/
def batches {α : Type} (c : ℕ) (l : List α) : List (List α) :=
  (List.range ((l.length + c - 1) / c)).map fun k => (l.drop (k * c)).take c

/-- `mi[ii, jj] = mi_vals; mi[jj, ii] = mi_vals` for one batch, mi.py:247-248. -/
noncomputable def store (x : List (Fin f → ℤ)) (w : List ℝ) (pc Z eps : ℝ) (K : ℕ) (mi : Fin f → Fin f → ℝ) (batch : List (Edge f)) :
    Fin f → Fin f → ℝ :=
  batch.zipIdx.foldl (fun m q =>
    let v := miPair x w pc Z eps K batch q.2 q.1.1 q.1.2
    fun i j => if (i = q.1.1 ∧ j = q.1.2) ∨ (i = q.1.2 ∧ j = q.1.1) then v else m i j) mi

/-- The matrix, mi.py:207-250: the diagonal holds entropies. -/
noncomputable def matrixCat (x : List (Fin f → ℤ)) (w : List ℝ) (pc Z eps : ℝ) (K chunk : ℕ) : Fin f → Fin f → ℝ :=
  (batches chunk (triu f)).foldl (store x w pc Z eps K) fun i j => if i = j then
    - ∑ k ∈ Finset.range K, single x w pc Z K i k * Real.log (max (single x w pc Z K i k) eps) else 0

/-- Not a category, mi.py:176-177. -/
def outside (K t : ℤ) : Bool := decide (t < 0) || decide (K ≤ t)

/-- Weights and pseudo-mass, mi.py:179-190. -/
noncomputable def catWeights (N : ℕ) (pseudo : ℝ) : Option (List (Option ℝ)) → Except Exc (List ℝ × ℝ)
  | none => .ok (List.replicate N 1, pseudo)
  | some ws => match readWeights N ws with
    | .error e => .error e
    | .ok w => if N = 0 then .error .zeroDivision else .ok (w, pseudo * w.sum / (N : ℝ))

/-- `pairwise_mi_categorical`, mi.py:142-250. -/
noncomputable def miCategorical (data : List (Rec f)) (numCats? : Option ℤ) (weights : Option (List (Option ℝ)))
    (pseudo : ℝ) (chunk : ℤ) (eps : ℝ) : Except Exc (Fin f → Fin f → ℝ) := open Classical in do
  if pseudo < 0 then throw .invalidParameter
  if chunk < 1 then throw .invalidParameter
  if (entries data).any Option.isNone then throw .invalidParameter
  let x := toLong data
  let K := numCats x numCats?
  if K ≤ 0 then throw .invalidParameter
  if (entries x).any (outside K) then throw .invalidParameter
  let (w, pc) ← catWeights data.length pseudo weights
  if w.sum + pc ≤ 0 then throw .invalidParameter
  return matrixCat x w pc (w.sum + pc) eps K.toNat chunk.toNat

/-! ## Trees -/

/-- The value every caller uses for `eps`, mi.py:113 and 150. -/
noncomputable def eps0 : ℝ := 1 / 10 ^ 12

/-- `learn_chow_liu_trees_binary`, chow_liu.py:18-44, with `dropout_prob = 0`. -/
noncomputable def treesBinary (data : List (Rec f)) (k : ℕ) (weights : Option (List (Option ℝ))) (pc : ℝ)
    (pick : List (Mst.Entry f) → ℕ) : Except Exc (List (List (Edge f))) := open Classical in do
  if k < 1 then throw .invalidParameter
  if pc < 0 then throw .invalidParameter
  let mi ← miBinary data weights pc eps0
  Mst.topk (fun e => - mi e.1 e.2) k true pick

/-- `learn_chow_liu_trees_categorical`, chow_liu.py:68-99, with `dropout_prob = 0`. -/
noncomputable def treesCategorical (data : List (Rec f)) (numCats? : Option ℤ) (k : ℕ) (weights : Option (List (Option ℝ)))
    (pc : ℝ) (chunk : ℤ) (pick : List (Mst.Entry f) → ℕ) : Except Exc (List (List (Edge f))) := open Classical in do
  if k < 1 then throw .invalidParameter
  if pc < 0 then throw .invalidParameter
  let mi ← miCategorical data numCats? weights pc chunk eps0
  Mst.topk (fun e => - mi e.1 e.2) k true pick

end Verif.Mi

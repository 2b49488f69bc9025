import Verif.CLTree
import Verif.LeafFit
import Verif.Mst

/-!
# Model of learning Chow-Liu tree leaves

File modelled: spflow/modules/leaves/cltree.py (`_compute_mutual_information`, `fit_structure`, `_prepare_mle_inputs`,
`maximum_likelihood_estimation`), with `_resolve_scope_columns` of leaf.py.

Simplifications: exact reals instead of floats; a data entry is a finite real or NaN; the weights have shape (N, F, C, R);
`parents[i] = -1` is `none`; the entry of `parents` is in range by its type.
-/

namespace Verif.CltFit

variable {F : ℕ}

/-- `1e-12`, the clamp used throughout. -/
noncomputable def tiny : ℝ := 1 / 10 ^ 12

/-! ## Columns -/

/-- `_resolve_scope_columns`, leaf.py:1011-1037. -/
def resolve (query : Fin F → ℕ) (D : ℕ) : Except Exc (Fin F → ℕ) :=
  if ∀ i, query i < D then .ok query
  else if D = F then .ok fun i => i
  else .error .shapeError

/-- `data[:, scope_cols]`, cltree.py:239. -/
def takeCols (cols : Fin F → ℕ) (row : LeafFit.Row) : LeafFit.Row := ⟨fun f => if h : f < F then row.val (cols ⟨f, h⟩) else none, row.w⟩

/-- `scoped.to(dtype=torch.long)`, cltree.py:308, 436. -/
noncomputable def toX (row : LeafFit.Row) : Fin F → ℕ := CLTree.truncObs fun i => row.val i

/-! ## Mutual information -/

/-- Weighted rows. -/
abbrev WRows (F : ℕ) := List ((Fin F → ℕ) × ℝ)

/-- `w * (num_samples / w.sum().clamp_min(1e-12))`, cltree.py:261. -/
noncomputable def renorm (l : WRows F) : WRows F := l.map fun p => (p.1, p.2 * ((l.length : ℝ) / max (l.map Prod.snd).sum tiny))

/-- `(w * (x[:, i] == k)).sum()`, cltree.py:266, 457. -/
noncomputable def count1 (l : WRows F) (i : Fin F) (k : ℕ) : ℝ := (l.map fun p => p.2 * (if p.1 i = k then 1 else 0)).sum

/-- `(w * (x[:, i] == a) * (x[:, j] == b)).sum()`, cltree.py:278, 478-480. -/
noncomputable def count2 (l : WRows F) (i j : Fin F) (a b : ℕ) : ℝ :=
  (l.map fun p => p.2 * (if p.1 i = a then 1 else 0) * (if p.1 j = b then 1 else 0)).sum

/-- `p_i`, cltree.py:264-268. -/
noncomputable def probs1 (α : ℝ) (K : ℕ) (l : WRows F) (i : Fin F) (k : ℕ) : ℝ :=
  (α + count1 l i k) / max (∑ k' ∈ Finset.range K, (α + count1 l i k')) tiny

/-- `p_ij`, cltree.py:274-279. -/
noncomputable def probs2 (α : ℝ) (K : ℕ) (l : WRows F) (i j : Fin F) (a b : ℕ) : ℝ :=
  (α + count2 l i j a b) / max (∑ a' ∈ Finset.range K, ∑ b' ∈ Finset.range K, (α + count2 l i j a' b')) tiny

/-- `clamp_min(1e-12).log()`. -/
noncomputable def logc (p : ℝ) : ℝ := Real.log (max p tiny)

/-- `mi_ij`, cltree.py:280-282. -/
noncomputable def miEntry (α : ℝ) (K : ℕ) (l : WRows F) (i j : Fin F) : ℝ :=
  ∑ a ∈ Finset.range K, ∑ b ∈ Finset.range K,
    probs2 α K l i j a b * (logc (probs2 α K l i j a b) - logc (probs1 α K l i a) - logc (probs1 α K l j b))

/-- `_compute_mutual_information`, cltree.py:241-285: symmetric, zero diagonal. -/
noncomputable def miMatrix (α : ℝ) (K : ℕ) (l : WRows F) (i j : Fin F) : ℝ :=
  if i < j then miEntry α K (renorm l) i j else if j < i then miEntry α K (renorm l) j i else 0

/-! ## Structure -/

/-- `_has_learned_structure`, cltree.py:221-232. -/
def hasStructure (p : Fin F → Option (Fin F)) : Prop :=
  (Finset.univ.filter fun i => p i = none).card = 1 ∧ ∀ i, p i ≠ some i

variable [NeZero F]

open Classical in
/-- `fit_structure`, cltree.py:287-319; `w` are the `sample_weights`, one per row. -/
noncomputable def fitStructure (query : Fin F → ℕ) (D K : ℕ) (α : ℝ) (rows : List LeafFit.Row) (w : List ℝ) :
    Except Exc (Fin F → Option (Fin F)) := do
  let cols ← resolve query D
  let s := rows.map (takeCols cols)
  if ∃ row ∈ s, ∃ i : Fin F, row.val i = none then throw .invalidParameter
  if ¬ ∀ row ∈ s, ∀ i : Fin F, CLTree.validEntry K (row.val i) then throw .invalidParameter
  if w.length ≠ rows.length then throw .shapeError
  Mst.prim (miMatrix α K ((s.map toX).zip w)) 0

/-! ## Conditional probability tables -/

/-- `log_root`, cltree.py:455-460. -/
noncomputable def cptRoot (α : ℝ) (K : ℕ) (l : WRows F) (i : Fin F) (k : ℕ) : ℝ :=
  logc ((α + count1 l i k) / max (∑ k' ∈ Finset.range K, (α + count1 l i k')) tiny)

/-- `log_cpt[i]`, cltree.py:469-482. -/
noncomputable def cptNode (α : ℝ) (K : ℕ) (l : WRows F) (i p : Fin F) (a b : ℕ) : ℝ :=
  logc ((α + count2 l p i b a) / max (∑ a' ∈ Finset.range K, (α + count2 l p i b a')) tiny)

/-- What a fit changes: the tree, and `log_cpt[i, c, r, value, parent value]`. -/
structure State (F : ℕ) where
  parents : Fin F → Option (Fin F)
  logCpt : Fin F → ℕ → ℕ → ℕ → ℕ → ℝ

/-- The rows with the weights of the first feature, channel `c`, repetition `r`, cltree.py:452. -/
noncomputable def cellRows (P : List LeafFit.Row) (c r : ℕ) : WRows F := P.map fun row => (toX row, row.w 0 c r)

/-- `w_scalar`, cltree.py:440. -/
noncomputable def wScalar (C R : ℕ) (P : List LeafFit.Row) : List ℝ :=
  P.map fun row => ∑ c ∈ Finset.range C, ∑ r ∈ Finset.range R, row.w 0 c r

/-- The new tables, cltree.py:447-485. -/
noncomputable def tables (α : ℝ) (K : ℕ) (P : List LeafFit.Row) (parents : Fin F → Option (Fin F)) (i : Fin F) (c r a b : ℕ) : ℝ :=
  match parents i with
  | none => cptRoot α K (cellRows P c r) i a
  | some p => cptNode α K (cellRows P c r) i p a b

open Classical in
/-- `maximum_likelihood_estimation`, cltree.py:427-487, with `_prepare_mle_inputs`, cltree.py:400-425.  `nan_strategy=None`
is replaced by `"ignore"` (cltree.py:418-419).  `D` is the number of columns of `data`. -/
noncomputable def mle (query : Fin F → ℕ) (D K C R : ℕ) (α : ℝ) (s : State F) (rows : List LeafFit.Row) : Except Exc (State F) := do
  let cols ← resolve query D
  let P ← LeafFit.prepare true F C R (rows.map (takeCols cols))
  if P.length < 2 then throw .invalidParameter
  if ¬ ∀ row ∈ P, ∀ i : Fin F, CLTree.validEntry K (row.val i) then throw .invalidParameter
  let parents ← if hasStructure s.parents then pure s.parents else fitStructure query F K α P (wScalar C R P)
  return ⟨parents, tables α K P parents⟩

end Verif.CltFit

import Verif.Sampling
import Mathlib.Algebra.Order.Round
import Mathlib.Data.Fintype.Pi

/-!
# Model of the Chow-Liu tree leaf

spflow/modules/leaves/cltree.py.  Tree orders (50-78), likelihood of complete rows (340-354) and rows with missing
values (356-398), sampling and MPE (489-611).  One output channel and one repetition are modelled: the tensors carry
them as independent leading axes, and `_sample` selects one channel and one repetition per row (534-540).

Simplifications: exact reals instead of floats; a data entry is `none` (NaN) or a finite real (`inf` is not modelled);
the output tensor has `features` columns of which only column 0 is non-zero (353, 396), the model returns that column.
-/

namespace Verif.CLTree

/-! ## Parents and orders -/

/-- `parents[i]` as a node, `none` for `-1` (and for anything out of range, which 64-65 reject). -/
def par (ps : List ℤ) (i : Fin ps.length) : Option (Fin ps.length) :=
  if h : 0 ≤ ps[i] ∧ ps[i].toNat < ps.length then some ⟨ps[i].toNat, h.2⟩ else none

/-- `roots`, cltree.py:55. -/
def roots (ps : List ℤ) : List (Fin ps.length) := (List.finRange ps.length).filter fun i => ps[i] = -1

/-- `children[i]`, cltree.py:60-66, in increasing order. -/
def children (ps : List ℤ) (i : Fin ps.length) : List (Fin ps.length) :=
  (List.finRange ps.length).filter fun c => par ps c = some i

/-- The `while stack` loop, cltree.py:69-75.  The head of the list is the top of the stack: pushing the children in
decreasing order leaves them in increasing order on top.  `none`: the fuel did not suffice. -/
def dfs {α : Type} (ch : α → List α) : ℕ → List α → List α → Option (List α)
  | _, [], pre => some pre
  | 0, _ :: _, _ => none
  | n + 1, node :: st, pre => dfs ch n (ch node ++ st) (pre ++ [node])

/-- `_compute_orders_from_parents`, cltree.py:50-78: the pre-order and its reverse. -/
def computeOrders (ps : List ℤ) : Except Exc (List (Fin ps.length) × List (Fin ps.length)) :=
  if ps.length = 0 then .ok ([], [])
  else match roots ps with
    | [r] =>
      if (List.finRange ps.length).any fun c => decide (ps[c] ≠ -1 ∧ (ps[c] < 0 ∨ (ps.length : ℤ) ≤ ps[c])) then
        .error .invalidParameter
      else match dfs (children ps) (ps.length + 1) [r] [] with
        | some pre => .ok (pre, pre.reverse)
        | none => .error .recursionError
    | _ => .error .invalidParameter

/-- `_has_learned_structure`, cltree.py:230-241. -/
def hasStructure (ps : List ℤ) : Bool :=
  (roots ps).length == 1 &&
  (List.finRange ps.length).all fun i => decide (ps[i] = -1 ∨ ¬ (ps[i] < 0 ∨ (ps.length : ℤ) ≤ ps[i] ∨ ps[i] = (i : ℕ)))

/-! ## Messages -/

section
variable {F : ℕ} (pa : Fin F → Option (Fin F)) (cpt : Fin F → ℕ → ℕ → LogV)

/-- State of the upward pass: `child_sum` and `backptr` (554-557). -/
structure Up (F : ℕ) where
  cs : Fin F → ℕ → LogV
  bp : Fin F → ℕ → ℕ

/-- One iteration of the upward loop (372-386 and 559-577).  `pick` reduces the scores over `x_i`: it returns the
back pointer and the message.  An observed node contributes the score of its value. -/
def upStep (pick : (ℕ → LogV) → ℕ × LogV) (obs : Fin F → Option ℕ) (s : Up F) (i : Fin F) : Up F :=
  match pa i with
  | none => s
  | some p =>
    let score := fun xi xp => cpt i xi xp + s.cs i xi
    match obs i with
    | some xi =>
      { cs := Function.update s.cs p fun x => s.cs p x + score xi x
        bp := Function.update s.bp i fun _ => xi }
    | none =>
      { cs := Function.update s.cs p fun x => s.cs p x + (pick fun xi => score xi x).2
        bp := Function.update s.bp i fun x => (pick fun xi => score xi x).1 }

/-- Initial state: zeros. -/
def up0 : Up F := ⟨fun _ _ => 0, fun _ _ => 0⟩

/-- The whole upward pass. -/
def up (pick : (ℕ → LogV) → ℕ × LogV) (obs : Fin F → Option ℕ) (post : List (Fin F)) : Up F :=
  post.foldl (upStep pa cpt pick obs) up0

/-- `torch.logsumexp(score, dim)` (384, 575). -/
noncomputable def pickSum (K : ℕ) (f : ℕ → LogV) : ℕ × LogV := (0, lse K f)

/-- `torch.argmax`: the first maximal index. -/
noncomputable def argmaxN (n : ℕ) (l : ℕ → LogV) : ℕ :=
  ((List.range n).find? fun i => (List.range n).all fun j => open Classical in decide (l j ≤ l i)).getD 0

/-- `argmax` and `gather` (571-573). -/
noncomputable def pickMax (K : ℕ) (f : ℕ → LogV) : ℕ × LogV := (argmaxN K f, f (argmaxN K f))

/-- `root_score`, 389 and 580. -/
def rootScore (s : Up F) (root : Fin F) (x : ℕ) : LogV := cpt root x 0 + s.cs root x

/-- Log-likelihood of one row by belief propagation, 361-396. -/
noncomputable def bpRow (K : ℕ) (post : List (Fin F)) (root : Fin F) (obs : Fin F → Option ℕ) : LogV :=
  let s := up pa cpt (pickSum K) obs post
  match obs root with
  | some x => rootScore cpt s root x
  | none => lse K (rootScore cpt s root)

/-- Log-likelihood of one complete row by indexing the tables, 340-353. -/
def fastRow (x : Fin F → ℕ) : LogV :=
  ∑ i, cpt i (x i) (match pa i with | none => 0 | some p => x p)

/-! ## MPE and sampling -/

/-- `is_mpe=True`, 559-604. -/
noncomputable def mpeRow (K : ℕ) (pre post : List (Fin F)) (root : Fin F) (obs : Fin F → Option ℕ) : Fin F → ℕ :=
  let s := up pa cpt (pickMax K) obs post
  let xr := match obs root with | some x => x | none => argmaxN K (rootScore cpt s root)
  pre.foldl (fun a i =>
    if i = root then a else
    match pa i with
    | none => a
    | some p => match obs i with
      | some x => Function.update a i x
      | none => Function.update a i (s.bp i (a p))) (Function.update (fun _ => 0) root xr)

/-- One iteration of the downward sampling loop, 592-604. -/
noncomputable def drawNode (K : ℕ) (root : Fin F) (obs : Fin F → Option ℕ) (s : Up F) (i : Fin F) (a : Fin F → ℕ) :
    Prog (Fin F → ℕ) :=
  if i = root then .ret a else
  match pa i with
  | none => .ret a
  | some p => match obs i with
    | some x => .ret (Function.update a i x)
    | none => .choose K (fun x => cpt i x (a p) + s.cs i x) fun x => .ret (Function.update a i x)

/-- The downward loop over the pre-order. -/
noncomputable def drawNodes (K : ℕ) (root : Fin F) (obs : Fin F → Option ℕ) (s : Up F) :
    List (Fin F) → (Fin F → ℕ) → Prog (Fin F → ℕ)
  | [], a => .ret a
  | i :: l, a => (drawNode pa cpt K root obs s i a).bind (drawNodes K root obs s l)

/-- `is_mpe=False`, 559-604. -/
noncomputable def sampleRow (K : ℕ) (pre post : List (Fin F)) (root : Fin F) (obs : Fin F → Option ℕ) :
    Prog (Fin F → ℕ) :=
  let s := up pa cpt (pickSum K) obs post
  match obs root with
  | some x => drawNodes pa cpt K root obs s pre (Function.update (fun _ => 0) root x)
  | none => .choose K (rootScore cpt s root) fun x =>
      drawNodes pa cpt K root obs s pre (Function.update (fun _ => 0) root x)

end

/-! ## The API -/

/-- `_validate_discrete_values`, cltree.py:35-47, with `torch.allclose`'s defaults `rtol = 1e-5`, `atol = 1e-8`. -/
noncomputable def validEntry (K : ℕ) : Option ℝ → Prop
  | none => True
  | some x => |x - round x| ≤ (1e-8 : ℝ) + (1e-5 : ℝ) * |(round x : ℝ)| ∧ 0 ≤ x ∧ x < K

/-- `row[is_obs].round().to(torch.long)`, 366-367. -/
noncomputable def roundObs {F : ℕ} (row : Fin F → Option ℝ) : Fin F → Option ℕ :=
  fun i => (row i).map fun x => (round x).toNat

/-- `scoped.to(dtype=torch.long)` truncates, 342. -/
noncomputable def truncObs {F : ℕ} (row : Fin F → Option ℝ) : Fin F → ℕ :=
  fun i => ⌊(row i).getD 0⌋₊

open Classical in
/-- `CLTree.log_likelihood` on a batch, 321-398.  The whole batch takes the fast path iff no entry is missing.
An index that rounding pushed to `K` raises IndexError (382, 392). -/
noncomputable def logLikelihood (ps : List ℤ) (K : ℕ) (cpt : Fin ps.length → ℕ → ℕ → LogV)
    (rows : List (Fin ps.length → Option ℝ)) : Except Exc (List LogV) :=
  if ¬ (∀ row ∈ rows, ∀ i, validEntry K (row i)) then .error .invalidParameter
  else if hasStructure ps = false then .error .runtimeError
  else match computeOrders ps, roots ps with
    | .ok (_, post), root :: _ =>
      if ∀ row ∈ rows, ∀ i, row i ≠ none then .ok (rows.map fun row => fastRow (par ps) cpt (truncObs row))
      else if ∃ row ∈ rows, ∃ i ∈ post, ∃ v, roundObs row i = some v ∧ K ≤ v then .error .indexError
      else .ok (rows.map fun row => bpRow (par ps) cpt K post root (roundObs row))
    | .error e, _ => .error e
    | .ok _, [] => .error .valueError

end Verif.CLTree

import Verif.Circuit
import Verif.CircuitLemmas

/-!
# Model of `prune_sums` (spflow/learn/learn_spn.py:22-80)

The function rewrites the module tree in place; the model returns the rewritten tree.  Out-shapes that the modules above
the rewritten node recorded at construction are not modelled (they do not change where the rewriting is valid).
Python's recursion is modelled with fuel; `recursionError` is returned only if the fuel runs out, and the theorems show
that it never does when the fuel is at least the number of modules.
-/

namespace Verif
namespace Circ

/-- Number of modules. -/
def size : Circ → ℕ
  | leaf _ _ _ _ => 1
  | cat1 _ cs => 1 + (List.ofFn fun i => size (cs i)).sum
  | cat2 _ cs => 1 + (List.ofFn fun i => size (cs i)).sum
  | prod c => 1 + size c
  | sum c _ _ _ => 1 + size c

/-- `isinstance(c, Sum)` with its parts. -/
def sumParts : Circ → Option (Circ × ℕ × ℕ × (ℕ → ℕ → ℕ → ℕ → LogV))
  | sum c Co R θ => some (c, Co, R, θ)
  | _ => none

/-- `isinstance(c, Cat)` and `c.inputs`. -/
def catInputs : Circ → Option (List Circ)
  | cat1 _ cs => some (List.ofFn cs)
  | cat2 _ cs => some (List.ofFn cs)
  | _ => none

/-- All elements satisfy an `isinstance` test; the list of their parts. -/
def allSome {α β : Type} (p : α → Option β) : List α → Option (List β)
  | [] => some []
  | a :: l => match p a, allSome p l with
    | some b, some bs => some (b :: bs)
    | _, _ => none

/-- The tensor `module.weights`, sum.py:199-207. -/
noncomputable def weightsOf (c : Circ) (Co R : ℕ) (θ : ℕ → ℕ → ℕ → ℕ → LogV) : Weights :=
  ⟨F c, C c, Co, R, weight c θ⟩

/-- Broadcast of two axis sizes. -/
def bsize (a b : ℕ) : Except Exc ℕ :=
  if a = b then .ok a else if a = 1 then .ok b else if b = 1 then .ok a else .error .runtimeError

/-- `new_weights[i] * current_weights[:, i, :].unsqueeze(1)`, learn_spn.py:51-54. -/
def scaleOne (w cur : Weights) (i : ℕ) : Except Exc Weights :=
  if cur.Ci ≤ i then .error .indexError
  else do
    let f ← bsize w.Fw cur.Fw
    let co ← bsize w.Co cur.Co
    let r ← bsize w.R cur.R
    return ⟨f, w.Ci, co, r, fun f ci co r =>
      w.val (bc w.Fw f) ci (bc w.Co co) (bc w.R r) * cur.val (bc cur.Fw f) i (bc cur.Co co) (bc cur.R r)⟩

/-- The loop learn_spn.py:51-54, children numbered from `i`. -/
def scaleAll (cur : Weights) : ℕ → List Weights → Except Exc (List Weights)
  | _, [] => .ok []
  | i, w :: ws => do
    let a ← scaleOne w cur i
    let l ← scaleAll cur (i + 1) ws
    return a :: l

/-- Values of a concatenation of blocks. -/
def catW : List (ℕ × (ℕ → ℝ)) → ℕ → ℝ
  | [], _ => 0
  | (n, g) :: rest, ch => if ch < n then g ch else catW rest (ch - n)

/-- `torch.concatenate(updated_weights, dim=1)`, learn_spn.py:55. -/
def concatCi : List Weights → Except Exc Weights
  | [] => .error .runtimeError
  | w :: ws =>
    if ws.all (fun v => v.Fw == w.Fw && v.Co == w.Co && v.R == w.R) then
      .ok ⟨w.Fw, ((w :: ws).map Weights.Ci).sum, w.Co, w.R,
        fun f ci co r => catW ((w :: ws).map fun v => (v.Ci, fun k => v.val f k co r)) ci⟩
    else .error .runtimeError

/-- `node.weights_shape = shape; node.weights = w`, learn_spn.py:63-64: the shape check of the setter
(sum.py:214) is vacuous, the other two remain. -/
noncomputable def setChecked (w : Weights) : Except Exc (ℕ → ℕ → ℕ → ℕ → LogV) :=
  open Classical in
  if ¬ (∀ f < w.Fw, ∀ ci < w.Ci, ∀ co < w.Co, ∀ r < w.R, 0 < w.val f ci co r) then .error .invalidWeights
  else if ¬ (∀ f < w.Fw, ∀ co < w.Co, ∀ r < w.R,
      CloseToOne (∑ ci ∈ Finset.range w.Ci, w.val f ci co r)) then
    .error .invalidWeights
  else .ok fun f ci co r => logL (w.val f ci co r)

/-- Inputs of the new Cat, learn_spn.py:57-62. -/
def newInputs (inner : List Circ) : List Circ :=
  match allSome catInputs inner with
  | some ls => ls.flatten
  | none => inner

/-- One flattening of the Sum node `sum c Co R θ`, learn_spn.py:37-64; `none` if it does not apply. -/
noncomputable def flattenSum (c : Circ) (Co R : ℕ) (θ : ℕ → ℕ → ℕ → ℕ → LogV) : Except Exc (Option Circ) :=
  match catInputs c with
  | none => .ok none
  | some l => match allSome sumParts l with
    | none => .ok none
    | some [] => .ok none
    | some (p :: ps) => do
      let ws ← scaleAll (weightsOf c Co R θ) 0 ((p :: ps).map fun q => weightsOf q.1 q.2.1 q.2.2.1 q.2.2.2)
      let w ← concatCi ws
      let c' ← mkCat 2 (newInputs ((p :: ps).map fun q => q.1))
      let θ' ← setChecked w
      return some (sum c' w.Co w.R θ')

/-- `for child in node.inputs: ...`, learn_spn.py:78-80. -/
def seqFin : {n : ℕ} → (Fin n → Except Exc Circ) → Except Exc (Fin n → Circ)
  | 0, _ => .ok Fin.elim0
  | _ + 1, g => do
    let a ← g 0
    let r ← seqFin fun i => g i.succ
    return Fin.cons a r

/-- `prune_sums(node)`, learn_spn.py:36-80.  (Leaves are left alone wherever they occur.) -/
noncomputable def prune : ℕ → Circ → Except Exc Circ
  | _, leaf q C R d => .ok (leaf q C R d)
  | 0, _ => .error .recursionError
  | k + 1, sum c Co R θ => do
    match ← flattenSum c Co R θ with
    | some c' => prune k c'
    | none => return sum (← prune k c) Co R θ
  | k + 1, prod c => do return prod (← prune k c)
  | k + 1, cat1 n cs => do return cat1 n (← seqFin fun i => prune k (cs i))
  | k + 1, cat2 n cs => do return cat2 n (← seqFin fun i => prune k (cs i))

end Circ
end Verif

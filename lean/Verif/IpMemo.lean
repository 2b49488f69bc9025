import Verif.SocsProps

/-!
# Model of the memo of exact inner products: `inner_product_matrix(a, b, cache=...)` and
`log_self_inner_product_scalar(module, cache=...)` (spflow/utils/inner_product.py:42-69,
spflow/utils/inner_product_core.py:460-608)

`Inner.ip` is the computation without a cache.  Here every module carries its Python identity, and results are stored
under pairs of identities, as in `cache.extras["_inner_product_memo"]`.  The public functions always pass this one memo
key and `signed_sum_types=(SignedSum,)`; nested calls use the same key.  As in `Inner.ip`, all pairs of modules of
different kinds raise `unsupported`.
-/

namespace Verif
namespace IpMemo

open Inner

/-- A circuit whose modules carry their `id()`. -/
inductive T where
  | leaf (id : ℕ) (q : List Var) (C R : ℕ) (par : ℕ → ℕ → ℕ → LeafPar)
  | cat1 (id : ℕ) (n : ℕ) (cs : Fin n → T)
  | cat2 (id : ℕ) (n : ℕ) (cs : Fin n → T)
  | prod (id : ℕ) (c : T)
  | sum (id : ℕ) (c : T) (Co R : ℕ) (w : ℕ → ℕ → ℕ → ℕ → ℝ)

namespace T

/-- `id(module)`. -/
def id : T → ℕ
  | leaf i _ _ _ _ => i
  | cat1 i _ _ => i
  | cat2 i _ _ => i
  | prod i _ => i
  | sum i _ _ _ _ => i

/-- The circuit without identities. -/
def ic : T → IC
  | leaf _ q C R par => .leaf q C R par
  | cat1 _ n cs => .cat1 n fun i => ic (cs i)
  | cat2 _ n cs => .cat2 n fun i => ic (cs i)
  | prod _ c => .prod (ic c)
  | sum _ c Co R w => .sum (ic c) Co R w

end T

/-- `cache.extras["_inner_product_memo"]`, inner_product_core.py:460-465. -/
abbrev Memo := ℕ → ℕ → Option Mat

/-- The memo of a new cache. -/
def Memo.empty : Memo := fun _ _ => none

/-- `memo[(i, j)] = k`. -/
def Memo.set (m : Memo) (i j : ℕ) (k : Mat) : Memo := fun i' j' => if i' = i ∧ j' = j then some k else m i' j'

/-- A computation that reads and writes a state (the memo); what it wrote stays when it raises. -/
abbrev M (σ α : Type) := σ → Except Exc α × σ

/-- `rearrange(rev, "f ci co r -> f co ci r")`. -/
def swap (k : Mat) : Mat := fun f i j r => k f j i r

/-- inner_product_core.py:476-486 (look up the pair, then the reversed pair) and the stores after each computation. -/
def cached (i j : ℕ) (body : M Memo Mat) : M Memo Mat := fun m =>
  match m i j with
  | some k => (.ok k, m)
  | none =>
    match m j i with
    | some k => (.ok (swap k), m.set i j (swap k))
    | none =>
      match body m with
      | (.ok k, m') => (.ok k, m'.set i j k)
      | (.error e, m') => (.error e, m')

/-- A list comprehension over calls that use the memo: the first error ends it. -/
def seqM {σ α : Type} : {n : ℕ} → (Fin n → M σ α) → M σ (Fin n → α)
  | 0, _ => fun m => (.ok Fin.elim0, m)
  | _ + 1, g => fun m =>
    match g 0 m with
    | (.error e, m1) => (.error e, m1)
    | (.ok a, m1) =>
      match seqM (fun i => g i.succ) m1 with
      | (.error e, m2) => (.error e, m2)
      | (.ok rest, m2) => (.ok (Fin.cons a rest), m2)

/-- Raise. -/
def fail {σ α : Type} (e : Exc) : M σ α := fun m => (.error e, m)

/-- Apply a function to the result. -/
def mapM' {σ α β : Type} (x : M σ α) (g : α → β) : M σ β := fun m =>
  match x m with
  | (.error e, m') => (.error e, m')
  | (.ok a, m') => (.ok (g a), m')

open T in
/-- `inner_product_matrix(a, b, cache=cache)`, inner_product_core.py:468-592; same branches as `Inner.ip`. -/
noncomputable def ipM : T → T → M Memo Mat
  | leaf i q C1 R1 par1, leaf j q' C2 R2 par2 =>
    cached i j fun m => (ip (.leaf q C1 R1 par1) (.leaf q' C2 R2 par2), m)
  | cat1 ia n cs, cat1 ib m ds =>
    cached ia ib <|
      if (T.cat1 ia n cs).ic.vars ≠ (T.cat1 ib m ds).ic.vars then fail .shapeError
      else if (T.cat1 ia n cs).ic.F ≠ (T.cat1 ib m ds).ic.F then fail .shapeError
      else if (T.cat1 ia n cs).ic.R ≠ (T.cat1 ib m ds).ic.R then fail .shapeError
      else if h : n = m then
        mapM' (seqM fun i : Fin n => ipM (cs i) (ds (i.cast h))) fun k f i j r =>
          let p := locate (List.ofFn fun i : Fin n => (cs i).ic.F) f
          pick k p.1 p.2 i j r
      else fail .shapeError
  | cat2 ia n cs, cat2 ib m ds =>
    cached ia ib <|
      if (T.cat2 ia n cs).ic.vars ≠ (T.cat2 ib m ds).ic.vars then fail .shapeError
      else if (T.cat2 ia n cs).ic.F ≠ (T.cat2 ib m ds).ic.F then fail .shapeError
      else if (T.cat2 ia n cs).ic.R ≠ (T.cat2 ib m ds).ic.R then fail .shapeError
      else
        mapM' (seqM fun i : Fin n => seqM fun j : Fin m => ipM (cs i) (ds j)) fun k f i j r =>
          let p := locate (List.ofFn fun i : Fin n => (cs i).ic.C) i
          let p' := locate (List.ofFn fun j : Fin m => (ds j).ic.C) j
          pick (fun i' : Fin n => pick (k i') p'.1) p.1 f p.2 p'.2 r
  | prod ia c, prod ib d =>
    cached ia ib <|
      if c.ic.vars ≠ d.ic.vars then fail .shapeError
      else if c.ic.R ≠ d.ic.R then fail .shapeError
      else mapM' (ipM c d) fun k _ i j r => ∏ f ∈ Finset.range c.ic.F, k f i j r
  | sum ia c _ R1 w, sum ib d _ R2 w' =>
    cached ia ib <|
      if c.ic.vars ≠ d.ic.vars then fail .shapeError
      else if c.ic.F ≠ d.ic.F then fail .shapeError
      else if R1 ≠ R2 then fail .shapeError
      else mapM' (ipM c d) fun k f a b r =>
        ∑ i ∈ Finset.range c.ic.C, ∑ j ∈ Finset.range d.ic.C, w f i a r * k f i j r * w' f j b r
  | a, b => cached a.id b.id (fail .unsupported)

/-- `log_self_inner_product_scalar(module, cache=cache)`, inner_product_core.py:595-608. -/
noncomputable def logSelfM (t : T) : M Memo ℝ :=
  if (t.ic.F, t.ic.C, t.ic.R) ≠ (1, 1, 1) then fail .shapeError
  else mapM' (ipM t t) fun k => Real.log (clampMin (max (k 0 0 0 0) 0))

/-- A call with the cache. -/
inductive Call where
  | pair (a b : T)
  | self (t : T)

/-- What a call returns. -/
inductive Out where
  | mat (k : Except Exc Mat)
  | scalar (z : Except Exc ℝ)

/-- One call. -/
noncomputable def Call.run : Call → Memo → Out × Memo
  | .pair a b, m => (.mat (ipM a b m).1, (ipM a b m).2)
  | .self t, m => (.scalar (logSelfM t m).1, (logSelfM t m).2)

/-- A sequence of calls with one cache. -/
noncomputable def runAll : List Call → Memo → List Out × Memo
  | [], m => ([], m)
  | c :: cs, m => ((c.run m).1 :: (runAll cs (c.run m).2).1, (runAll cs (c.run m).2).2)

/-! ## Specification -/

/-- Every module of the circuit is the module that lives at its identity. -/
def On (obj : ℕ → T) : T → Prop
  | .leaf i q C R par => obj i = .leaf i q C R par
  | .cat1 i n cs => obj i = .cat1 i n cs ∧ ∀ k, On obj (cs k)
  | .cat2 i n cs => obj i = .cat2 i n cs ∧ ∀ k, On obj (cs k)
  | .prod i c => obj i = .prod i c ∧ On obj c
  | .sum i c Co R w => obj i = .sum i c Co R w ∧ On obj c

/-- The entries of the tensors `[feature, channel of a, channel of b, repetition]` agree. -/
def Agree (a b : IC) (k k' : Mat) : Prop :=
  ∀ f < a.F, ∀ i < a.C, ∀ j < b.C, ∀ r < a.R, k f i j r = k' f i j r

/-- Same error, or results related by `P`. -/
def Same {α : Type} (P : α → α → Prop) : Except Exc α → Except Exc α → Prop
  | .error e, x => x = .error e
  | .ok k, x => ∃ k', x = .ok k' ∧ P k k'

/-- A call returned what the same call returns without a cache. -/
def Call.Right : Call → Out → Prop
  | .pair a b, .mat x => Same (Agree a.ic b.ic) x (ip a.ic b.ic)
  | .self t, .scalar x => x = logSelf t.ic
  | _, _ => False

/-- Circuits for which the leaf formulas are symmetric (C35). -/
structure Good (disc : Var → Bool) (S : Set ℝ) (a : IC) : Prop where
  wf : Wf a
  sorted : Sorted a
  leaves : Leaves (Admissible disc S) a

/-- The modules of a call exist, and are good. -/
def Call.Fine (disc : Var → Bool) (S : Set ℝ) (obj : ℕ → T) : Call → Prop
  | .pair a b => On obj a ∧ On obj b ∧ Good disc S a.ic ∧ Good disc S b.ic
  | .self t => On obj t ∧ Good disc S t.ic

end IpMemo
end Verif

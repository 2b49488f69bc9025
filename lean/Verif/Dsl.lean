import Verif.Circuit

/-!
# Model of `spflow/dsl.py`: algebraic expressions for circuits and the `dsl()` context manager

* Weights are exact numbers (`Num`); float rounding and overflow are not modelled.  NaN and the infinities are the
  single value `nonfinite`.
* The device checks (dsl.py:239-243, 269-273) are not modelled: everything lives on one device.
* `AttributeError` is represented by `.keyError`.
-/

namespace Verif.Dsl

open Verif Circ

/-- A Python number used as a weight. -/
inductive Num where
  | real (a : ℝ)
  | nonfinite

/-- Expression objects: `Term` (dsl.py:78-100), `ProductExpr` (103-127), `SumExpr` (172-220) and `WeightedExpr`
(130-169).  Lists are functions on `Fin n`. -/
inductive Expr where
  | term (c : Circ)
  | prod (n : ℕ) (es : Fin n → Expr)
  | sum (n : ℕ) (ws : Fin n → ℝ) (es : Fin n → Expr)
  | weighted (w : ℝ) (e : Expr)

/-- `ProductExpr(l)` with a list. -/
def Expr.prodL (l : List Expr) : Expr := .prod l.length l.get

/-- The terms `(weight, expr)` of a mixture object, dsl.py:179; a `WeightedExpr` is the one-term list it contributes
to a mixture (dsl.py:150-162, 188-192).  `none` for the other objects. -/
def Expr.terms : Expr → Option (List (ℝ × Expr))
  | .weighted w e => some [(w, e)]
  | .sum n ws es => some (List.ofFn fun i : Fin n => (ws i, es i))
  | _ => none

/-- `SumExpr(terms)` with its `__post_init__`, dsl.py:181-186. -/
noncomputable def mkSumExpr (l : List (ℝ × Expr)) : Except Exc Expr :=
  open Classical in
  if l.length < 2 then .error .invalidParameter
  else if ∃ a ∈ l, a.1 ≤ 0 then .error .invalidWeights
  else .ok (.sum l.length (fun i => (l.get i).1) fun i => (l.get i).2)

/-- `WeightedExpr(weight, expr)` with its `__post_init__`, dsl.py:137-143. -/
noncomputable def mkWeighted (w : Num) (e : Expr) : Except Exc Expr :=
  open Classical in
  match w with
  | .nonfinite => .error .invalidWeights
  | .real a => if a ≤ 0 then .error .invalidWeights else .ok (.weighted a e)

/-! ## build -/

/-- `[factor.build() for factor in ...]`: the first exception propagates. -/
def seqAll : List (Except Exc Circ) → Except Exc (List Circ)
  | [] => .ok []
  | a :: l => do
    let m ← a
    let ms ← seqAll l
    return m :: ms

/-- `len({...}) == 1` of an attribute of the modules. -/
def allSame (f : Circ → ℕ) (ms : List Circ) : Bool := ms.all fun m => f m == (ms.head?.map f).getD 0

/-- `_validate_product_modules`, dsl.py:223-243. -/
def validateProduct (ms : List Circ) : Except Exc Unit := do
  if ms.length < 2 then throw .invalidParameter
  let disj ← Scope.allPairwiseDisjoint (ms.map scope)
  if ! disj then throw .scopeError
  if ! allSame C ms then throw .shapeError
  if ! allSame R ms then throw .shapeError
  return ()

/-- `_validate_sum_modules`, dsl.py:246-273. -/
def validateSum (ms : List Circ) : Except Exc Unit := do
  if ms.length < 2 then throw .invalidParameter
  if ! Scope.allEqual (ms.map scope) then throw .scopeError
  if ! allSame F ms then throw .shapeError
  if ! ms.all (fun m => C m == 1) then throw .shapeError
  if ! allSame R ms then throw .shapeError
  return ()

/-- `_make_sum_weights`, dsl.py:276-301: normalised and repeated over features and repetitions. -/
noncomputable def makeSumWeights (ws : List ℝ) (F R : ℕ) : Except Exc Weights :=
  open Classical in
  if ¬ ∀ a ∈ ws, 0 < a then .error .invalidWeights
  else if ws.sum ≤ 0 then .error .invalidWeights
  else .ok { Fw := F, Ci := ws.length, Co := 1, R := R, val := fun _ ci _ _ => ws.getD ci 0 / ws.sum }

/-- `.build()`: dsl.py:84-85 (Term), 124-127 (ProductExpr), 207-220 (SumExpr), 145-148 (WeightedExpr). -/
noncomputable def build : Expr → Except Exc Circ
  | .term c => .ok c
  | .prod n es => do
    let ms ← seqAll (List.ofFn fun i : Fin n => build (es i))
    validateProduct ms
    mkProd ms
  | .sum n ws es => do
    let ms ← seqAll (List.ofFn fun i : Fin n => build (es i))
    validateSum ms
    let w ← makeSumWeights (List.ofFn ws) ((ms.head?.map F).getD 0) ((ms.head?.map R).getD 0)
    mkSum ms w
  | .weighted _ _ => .error .invalidParameter

/-! ## Operators -/

/-- Python values that meet in DSL expressions. -/
inductive Obj where
  | num (a : Num)
  | mod (c : Circ)
  | expr (e : Expr)

/-- `as_expr`, dsl.py:52-58.  `Buildable` is a runtime-checkable protocol: every object with a `build` method passes,
`WeightedExpr` included. -/
def asExpr : Obj → Except Exc Expr
  | .num _ => .error .invalidParameter
  | .mod c => .ok (.term c)
  | .expr e => .ok e

/-- Product of two Python numbers. -/
noncomputable def Num.mul : Num → Num → Num
  | .real a, .real b => .real (a * b)
  | _, _ => .nonfinite

/-- Sum of two Python numbers. -/
noncomputable def Num.add : Num → Num → Num
  | .real a, .real b => .real (a + b)
  | _, _ => .nonfinite

/-- `expr * other` for the four classes: `Term.__mul__` 87-90, `ProductExpr.__mul__` 109-112, `SumExpr.__mul__`
197-200, `WeightedExpr.__mul__` 164-169. -/
noncomputable def exprMul (e : Expr) (other : Obj) : Except Exc Expr :=
  match e, other with
  | .weighted w e, o => do
    let b ← asExpr o
    mkWeighted (.real w) (.prodL [e, b])
  | e, .num a => mkWeighted a e
  | .prod _ es, o => do
    let b ← asExpr o
    return .prodL (List.ofFn es ++ [b])
  | e, o => do
    let b ← asExpr o
    return .prodL [e, b]

/-- `a * b` with Python's dispatch (`__mul__`, then the reflected `__rmul__` if `a` has none or returns
NotImplemented, else TypeError).  `on`: inside a `dsl()` block, where Module has `_dsl_mul` (326-335) and `_dsl_rmul`
(337-340); outside, Module has neither.  `__rmul__` of the expression classes (92-95, 114-117, 202-205) accepts only
numbers; WeightedExpr has no `__rmul__`. -/
noncomputable def mul (on : Bool) : Obj → Obj → Except Exc Obj
  | .num a, .num b => .ok (.num (a.mul b))
  | .num a, .mod c => if on then return .expr (← mkWeighted a (.term c)) else .error .typeError
  | .num _, .expr (.weighted _ _) => .error .typeError
  | .num a, .expr e => do return .expr (← mkWeighted a e)
  | .expr e, o => do return .expr (← exprMul e o)
  | .mod c, .num a => if on then return .expr (← mkWeighted a (.term c)) else .error .typeError
  | .mod c, .expr (.weighted w e) =>
    if on then return .expr (← mkWeighted (.real w) (.prodL [.term c, e])) else .error .typeError
  | .mod c, .mod d => if on then .ok (.expr (.prodL [.term c, .term d])) else .error .typeError
  | .mod c, .expr e => if on then .ok (.expr (.prodL [.term c, e])) else .error .invalidParameter

/-- `a + b` with Python's dispatch: `Term.__add__` 97-100, `ProductExpr.__add__` 119-122, `WeightedExpr.__add__`
150-157, `WeightedExpr.__radd__` 159-162 (reached only from objects without `__add__`, then NotImplemented),
`SumExpr.__add__` 188-195, `_dsl_add` 342-343, `_dsl_radd` 345-346. -/
noncomputable def add (on : Bool) : Obj → Obj → Except Exc Obj
  | .num a, .num b => .ok (.num (a.add b))
  | .num _, _ => .error .typeError
  | .mod _, _ => if on then .error .invalidParameter else .error .typeError
  | .expr a, .expr b =>
    match a.terms, b.terms with
    | some s, some t => do return .expr (← mkSumExpr (s ++ t))
    | _, _ => .error .invalidParameter
  | .expr _, _ => .error .invalidParameter

/-! ## The `dsl()` context manager -/

/-- The four operator attributes, dsl.py:321-324. -/
inductive Op where
  | mul | rmul | add | radd
  deriving DecidableEq

/-- The class object `Module`: the entries of its own dictionary and the ones found in its bases. -/
structure Cls (φ : Type) where
  own : Op → Option φ
  inh : Op → Option φ

/-- `getattr(Module, name, sentinel)`; `none` is the sentinel. -/
def Cls.lookup {φ : Type} (s : Cls φ) (o : Op) : Option φ := (s.own o).orElse fun _ => s.inh o

/-- `setattr(Module, name, f)`. -/
def Cls.set {φ : Type} (s : Cls φ) (o : Op) (f : φ) : Cls φ := { s with own := fun p => if p = o then some f else s.own p }

/-- `delattr(Module, name)`: AttributeError when the class itself has no such entry. -/
def Cls.del {φ : Type} (s : Cls φ) (o : Op) : Except Exc (Cls φ) :=
  if (s.own o).isSome then .ok { s with own := fun p => if p = o then none else s.own p } else .error .keyError

/-- Entering the block, dsl.py:319-351: the saved attributes and the class with the overloads `ov` installed. -/
def enter {φ : Type} (ov : Op → φ) (s : Cls φ) : (Op → Option φ) × Cls φ :=
  (s.lookup, (((s.set .mul (ov .mul)).set .rmul (ov .rmul)).set .add (ov .add)).set .radd (ov .radd))

/-- One restore step, e.g. dsl.py:357-360. -/
def restore1 {φ : Type} (saved : Op → Option φ) (o : Op) (s : Cls φ) : Except Exc (Cls φ) :=
  match saved o with
  | none => s.del o
  | some f => .ok (s.set o f)

/-- Leaving the block (`finally`), dsl.py:355-375. -/
def leave {φ : Type} (saved : Op → Option φ) (s : Cls φ) : Except Exc (Cls φ) := do
  let s ← restore1 saved .mul s
  let s ← restore1 saved .rmul s
  let s ← restore1 saved .add s
  restore1 saved .radd s

/-- Programs using `dsl()`: `pure k` is code that does not touch the operators of `Module` (and may raise), `seq`
runs one program after the other, `block p` is `with dsl(): p`, `attempt p` is `try: p except: pass`. -/
inductive Prog where
  | pure (e : Option Exc)
  | seq (p q : Prog)
  | block (p : Prog)
  | attempt (p : Prog)

/-- Execution: the class afterwards and the exception that is propagating, if any.  dsl.py:353-375: `yield` in
try/finally, so the block is left whether or not the body raised (an exception raised while restoring replaces it and
leaves the class as the failing step found it; `s` there is what the partial restore had produced - modelled as the
state before the restore, see C39_restores: it never happens). -/
def run {φ : Type} (ov : Op → φ) : Prog → Cls φ → Cls φ × Option Exc
  | .pure e, s => (s, e)
  | .seq p q, s =>
    match run ov p s with
    | (s, none) => run ov q s
    | (s, some e) => (s, some e)
  | .block p, s =>
    let (saved, s1) := enter ov s
    let (s2, r) := run ov p s1
    match leave saved s2 with
    | .ok s3 => (s3, r)
    | .error e => (s2, some e)
  | .attempt p, s => ((run ov p s).1, none)

end Verif.Dsl

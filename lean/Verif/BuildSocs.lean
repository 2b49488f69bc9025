import Verif.SocsProps

/-!
# Model of spflow/utils/compatibility.py and spflow/learn/build_socs.py

Circuits are trees of leaf modules, `Cat`, `Product`, `Sum` and `SignedSum`, as in `Inner.lean`, with the run-time type of the
sums kept: the compatibility check compares types and `build_socs` replaces `Sum` nodes by `SignedSum` nodes.  A module that is
used twice inside one circuit is not modelled (`_check_pair` visits such a pair once; `named_children` skips a second occurrence in
the same `Cat`, so that `build_socs` leaves it unconverted), nor is a `RepetitionMixingLayer` (a subclass of `Sum`) or a `CLTree`.
-/

namespace Verif
namespace BuildSocs

open Inner

/-- A module tree with run-time types. `sum false` is a `Sum`, `sum true` a `SignedSum`. -/
inductive Tpl where
  | leaf (q : List Var) (C R : ℕ) (par : ℕ → ℕ → ℕ → LeafPar)
  | cat1 (n : ℕ) (cs : Fin n → Tpl)
  | cat2 (n : ℕ) (cs : Fin n → Tpl)
  | prod (c : Tpl)
  | sum (signed : Bool) (c : Tpl) (Co R : ℕ) (w : ℕ → ℕ → ℕ → ℕ → ℝ)

/-- The circuit of `Inner.lean`, which does not distinguish `Sum` and `SignedSum`. -/
def Tpl.ic : Tpl → IC
  | leaf q C R par => .leaf q C R par
  | cat1 n cs => .cat1 n fun i => (cs i).ic
  | cat2 n cs => .cat2 n fun i => (cs i).ic
  | prod c => .prod c.ic
  | sum _ c Co R w => .sum c.ic Co R w

/-- The class of a leaf (one number per family), and the number of categories `K` of the two classes that have one. -/
def tag : LeafPar → ℕ × ℕ
  | .bern _ => (0, 0)
  | .cat K _ => (1, K)
  | .scat K _ => (2, K)
  | .expo _ => (3, 0)
  | .unif _ _ => (4, 0)
  | .geom _ => (5, 0)
  | .normal _ _ => (6, 0)
  | .laplace _ _ => (7, 0)
  | .logNormal _ _ => (8, 0)
  | .poisson _ => (9, 0)
  | .gamma _ _ => (10, 0)
  | .binom _ _ => (11, 0)

/-- `type(module)`. The class and `K` of a leaf module are those of its cells, which agree (`Tpl.Uniform`). -/
def Tpl.ty : Tpl → ℕ
  | cat1 _ _ => 0
  | cat2 _ _ => 0
  | prod _ => 1
  | sum false _ _ _ _ => 2
  | sum true _ _ _ _ => 3
  | leaf _ _ _ par => 4 + (tag (par 0 0 0)).1

/-- The checks of `_check_pair` before those on `Cat`, compatibility.py:69-76. -/
def head (a b : Tpl) : Except Exc Unit :=
  if a.ty ≠ b.ty then .error .structureError
  else if a.ic.vars ≠ b.ic.vars then .error .shapeError
  else if (a.ic.F, a.ic.C, a.ic.R) ≠ (b.ic.F, b.ic.C, b.ic.R) then .error .shapeError
  else .ok ()

/-- One statement after the other; an exception ends the call. -/
def andThen (x y : Except Exc Unit) : Except Exc Unit :=
  match x with
  | .error e => .error e
  | .ok _ => y

/-- `_check_pair`, compatibility.py:64-109. -/
def checkPair : Tpl → Tpl → Except Exc Unit
  | .leaf q C R par, .leaf q' C' R' par' =>
    andThen (head (.leaf q C R par) (.leaf q' C' R' par'))
      -- 86-94
      (if (tag (par 0 0 0)).2 ≠ (tag (par' 0 0 0)).2 then .error .shapeError else .ok ())
  | .cat1 n cs, .cat1 m ds =>
    andThen (head (.cat1 n cs) (.cat1 m ds))
      -- 81-84, 108-109
      (if h : n = m then (seqFin fun i : Fin n => checkPair (cs i) (ds (i.cast h))).map fun _ => ()
      else .error .structureError)
  | .cat2 n cs, .cat2 m ds =>
    andThen (head (.cat2 n cs) (.cat2 m ds))
      (if h : n = m then (seqFin fun i : Fin n => checkPair (cs i) (ds (i.cast h))).map fun _ => ()
      else .error .structureError)
  | .prod c, .prod d => andThen (head (.prod c) (.prod d)) (checkPair c d)
  | .sum g c Co R w, .sum g' d Co' R' w' => andThen (head (.sum g c Co R w) (.sum g' d Co' R' w')) (checkPair c d)
  -- 79-80: two `Cat`s with different `dim` (`head` raises for the other pairs)
  | a, b => andThen (head a b) (.error .structureError)

/-- The loop of `check_compatible_components`, compatibility.py:117-119. -/
def checkLoop (ref : Tpl) : List Tpl → Except Exc Unit
  | [] => .ok ()
  | d :: ds => andThen (checkPair ref d) (checkLoop ref ds)

/-- `check_compatible_components`, compatibility.py:112-119. -/
def checkAll : List Tpl → Except Exc Unit
  | [] => .ok ()
  | c :: cs => checkLoop c cs

/-- The random numbers drawn for one converted sum node: uniform in `[0, 1)` and normal. -/
structure Draw where
  u : ℕ → ℕ → ℕ → ℕ → ℝ
  z : ℕ → ℕ → ℕ → ℕ → ℝ

open Classical in
/-- The weights of `_convert_sum`, build_socs.py:64-78. -/
noncomputable def perturb (flip noise : ℝ) (d : Draw) (w : ℕ → ℕ → ℕ → ℕ → ℝ) (f i o r : ℕ) : ℝ :=
  w f i o r * (1 - 2 * (if d.u f i o r < flip then 1 else 0)) + (if 0 < noise then noise * d.z f i o r else 0)

/-- `_convert_sum` at the root and `_transform_in_place`, build_socs.py:63-97, for `signed=True`. `d` gives the numbers drawn at
each node, addressed by the path to it. -/
noncomputable def Tpl.convert (flip noise : ℝ) : (List ℕ → Draw) → Tpl → Tpl
  | _, leaf q C R par => leaf q C R par
  | d, cat1 n cs => cat1 n fun i => (cs i).convert flip noise fun p => d (i :: p)
  | d, cat2 n cs => cat2 n fun i => (cs i).convert flip noise fun p => d (i :: p)
  | d, prod c => prod (c.convert flip noise fun p => d (0 :: p))
  | d, sum false c Co R w => sum true (c.convert flip noise fun p => d (0 :: p)) Co R (perturb flip noise (d []) w)
  | d, sum true c Co R w => sum true (c.convert flip noise fun p => d (0 :: p)) Co R w

/-- The keyword arguments of `build_socs`. -/
structure Opts where
  n : ℤ
  signed : Bool
  noise : ℝ
  flip : ℝ

/-- The components, build_socs.py:91-97. -/
noncomputable def copies (o : Opts) (d : ℕ → List ℕ → Draw) (t : Tpl) : List Tpl :=
  (List.range o.n.toNat).map fun i => if o.signed then t.convert o.flip o.noise (d i) else t

open Classical in
/-- `build_socs`, build_socs.py:24-101. -/
noncomputable def buildSocs (o : Opts) (d : ℕ → List ℕ → Draw) (t : Tpl) : Except Exc (List Tpl) :=
  if o.n < 1 then .error .invalidParameter
  else if o.noise < 0 then .error .invalidParameter
  else if ¬ (0 ≤ o.flip ∧ o.flip ≤ 1) then .error .invalidParameter
  else
    match checkAll (copies o d t) with
    | .error e => .error e
    | .ok _ =>
      match mkSocs ((copies o d t).map Tpl.ic) with
      | .error e => .error e
      | .ok _ => .ok (copies o d t)

/-- `build_complex_socs`, build_socs.py:170-196. -/
def buildComplex (a b : Tpl) : Except Exc (List IC) :=
  if a.ic.vars ≠ b.ic.vars then .error .invalidParameter
  else if (a.ic.F, a.ic.C, a.ic.R) ≠ (b.ic.F, b.ic.C, b.ic.R) then .error .invalidParameter
  else mkSocs [a.ic, b.ic]

end BuildSocs
end Verif

import Mathlib.Data.List.Dedup
import Mathlib.Data.List.Sort

/-!
# Model of `spflow/meta/data/scope.py`

`Scope` holds two tuples of integers.  Python exceptions are values of `Exc`.
Simplification: the constructor's argument normalisation (int / None / arbitrary iterable to list,
scope.py:47-63) is modelled by the separate type `ScopeArg`; the checks start from two integer lists.
-/

namespace Verif

/-- Exceptions raised by the modelled Python code, by class. -/
inductive Exc
  | invalidParameter
  | valueError
  | typeError
  | shapeError
  | structureError
  | scopeError
  | invalidWeights
  | invalidType
  | unsupported
  | missingCache
  | runtimeError
  | indexError
  | zeroDivision
  | recursionError
  | notImplemented
  | keyError
  deriving DecidableEq, Repr

/-- `Scope` fields, scope.py:25-26. -/
structure Scope where
  query : List Int
  evidence : List Int
  deriving DecidableEq, Repr

namespace Scope

/-- `len(xs) != len(set(xs))`, used at scope.py:76 and 79. -/
def hasDup (xs : List Int) : Bool := xs.length != xs.dedup.length

/-- `Scope.__init__` after normalisation, scope.py:65-89: the six checks in source order. -/
def mk? (query evidence : List Int) : Except Exc Scope :=
  if query.length = 0 ∧ evidence.length ≠ 0 then .error .invalidParameter
  else if query.any (· < 0) then .error .invalidParameter
  else if evidence.any (· < 0) then .error .invalidParameter
  else if hasDup query then .error .invalidParameter
  else if hasDup evidence then .error .invalidParameter
  else if query.any (fun q => evidence.contains q) then .error .invalidParameter
  else .ok ⟨query, evidence⟩

/-- The argument forms accepted by the constructor (scope.py:28-63): `None`, an int, an iterable. -/
inductive ScopeArg
  | none
  | int (n : Int)
  | iter (xs : List Int)

/-- Normalisation to a list, scope.py:47-63. -/
def ScopeArg.toList : ScopeArg → List Int
  | .none => []
  | .int n => [n]
  | .iter xs => xs

/-- `Scope(query, evidence)` as the user calls it, scope.py:28-89. -/
def init (query evidence : ScopeArg) : Except Exc Scope := mk? query.toList evidence.toList

/-- `set(a) == set(b)`, scope.py:155 and 168. -/
def setEq (a b : List Int) : Bool := a.all b.contains && b.all a.contains

/-- `equal_query`, scope.py:144-155. -/
def equalQuery (a b : Scope) : Bool := setEq a.query b.query

/-- `equal_evidence`, scope.py:157-168. -/
def equalEvidence (a b : Scope) : Bool := setEq a.evidence b.evidence

/-- `__eq__`, scope.py:108-119. -/
def pyEq (a b : Scope) : Bool := equalQuery a b && equalEvidence a b

/-- `remove_from_query`, scope.py:129-142; `list.remove` raises ValueError if absent. -/
def removeFromQuery (s : Scope) (rv : Int) : Except Exc Scope :=
  if s.query.contains rv then mk? (s.query.erase rv) s.evidence else .error .valueError

/-- `empty`, scope.py:170-178. -/
def isEmpty (s : Scope) : Bool := s.query.isEmpty

/-- `is_conditional`, scope.py:180-188. -/
def isConditional (s : Scope) : Bool := !s.evidence.isEmpty

/-- `isdisjoint`, scope.py:190-201. -/
def isDisjoint (a b : Scope) : Bool := a.query.all (fun q => !b.query.contains q)

/-- `sorted(set)` of a list of ints (scope.py:226). -/
def sortedSet (xs : List Int) : List Int := xs.dedup.insertionSort (· ≤ ·)

/-- The query tuple computed by `join`, scope.py:221,226. -/
def joinQuery (a b : Scope) : List Int := sortedSet (a.query ++ b.query)

/-- The evidence tuple computed by `join`, scope.py:224,226. -/
def joinEvidence (a b : Scope) : List Int :=
  sortedSet ((a.evidence ++ b.evidence).filter (fun e => !(a.query ++ b.query).contains e))

/-- `join`, scope.py:203-226 (calls the checking constructor). -/
def join (a b : Scope) : Except Exc Scope := mk? (joinQuery a b) (joinEvidence a b)

/-- `join_all`, scope.py:242-254: `functools.reduce`, TypeError on the empty iterable. -/
def joinAll : List Scope → Except Exc Scope
  | [] => .error .typeError
  | s :: ss => ss.foldlM join s

/-- loop body of `all_pairwise_disjoint`, scope.py:268-276, once `overall_scope` is set. -/
def pairwiseLoop (overall : Scope) : List Scope → Except Exc Bool
  | [] => .ok true
  | s :: ss =>
    if isDisjoint overall s then do
      let o ← join overall s
      pairwiseLoop o ss
    else .ok false

/-- `all_pairwise_disjoint`, scope.py:256-278. -/
def allPairwiseDisjoint : List Scope → Except Exc Bool
  | [] => .ok true
  | s :: ss => pairwiseLoop s ss

/-- `all_equal`, scope.py:280-299. -/
def allEqual : List Scope → Bool
  | [] => true
  | s :: ss => ss.all (fun t => pyEq s t)

/-- `copy`, scope.py:301-307. -/
def copy (s : Scope) : Except Exc Scope := mk? s.query s.evidence

/-- The arguments of `Scope.as_scope`: a scope, or anything the constructor takes (scope.py:228-240). -/
inductive AsScopeArg
  | scope (s : Scope)
  | other (a : ScopeArg)

/-- `as_scope`, scope.py:228-240. -/
def asScope : AsScopeArg → Except Exc Scope
  | .scope s => .ok s
  | .other a => init a .none

/-! ### The generated `__hash__`

`@dataclass(frozen=True)` (scope.py:12) with the class's own `__eq__` still generates
`__hash__ = hash((self.query, self.evidence))`: the hash of the *tuples*, in order.
`tupleHash`/`intHash` is CPython's (3.8+) `tuplehash` (xxHash based) on 64-bit platforms and
`hash(n) = n` for small non-negative ints. -/

/-- CPython `_PyHASH_XXROTATE` on 64 bit. -/
def rotl31 (x : UInt64) : UInt64 := (x <<< 31) ||| (x >>> 33)

/-- One lane step of CPython's tuple hash. -/
def hashLane (acc lane : UInt64) : UInt64 :=
  rotl31 (acc + lane * 14029467366897019727) * 11400714785074694791

/-- CPython's tuple hash of the given lane hashes. -/
def tupleHash (lanes : List UInt64) : UInt64 :=
  let acc := lanes.foldl hashLane 2870177450012600261
  let acc := acc + ((UInt64.ofNat lanes.length) ^^^ (2870177450012600261 ^^^ 3527539))
  if acc = 18446744073709551615 then 1546275796 else acc

/-- `hash(n)` of a Python int in `[0, 2^61-1)`. -/
def intHash (n : Int) : UInt64 := UInt64.ofNat n.toNat

/-- The generated `Scope.__hash__` (scope.py:12). -/
def pyHash (s : Scope) : UInt64 :=
  tupleHash [tupleHash (s.query.map intHash), tupleHash (s.evidence.map intHash)]

end Scope
end Verif

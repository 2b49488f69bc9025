/-
Model of `spflow.utils.replace.replace` (C07): Python class dictionaries, attribute lookup along
the MRO, and `with replace(...)` blocks nested arbitrarily in code that may raise.
-/
namespace Verif.Replace

/-- Names of classes and of attributes are opaque identifiers. -/
abbrev Cls := Nat
abbrev Attr := Nat

/-- A Python function object as far as `replace` looks at it (utils/replace.py:86-134):
`name` is `__name__`; `owner` is the class that `inspect.getmodule` + `__qualname__` resolve to
(`none` when there is no dot in the qualname or the module has no such attribute, e.g. for a local
or module-level function: ValueError, replace.py:113-132); `layers` counts the `cached` wrappers
around it (`__wrapped__` is present iff `layers > 0`; `functools.wraps` copies `__name__`,
`__qualname__` and `__module__`, cache.py:121-122). `base` identifies the underlying code. -/
structure Func where
  base : Nat
  name : Attr
  owner : Option Cls
  layers : Nat
deriving DecidableEq, Repr

/-- What a class `__dict__` can hold under a method name: a plain function, a staticmethod or a
classmethod object, or a method object bound to a class (left behind by `setattr` of the result of
looking up a classmethod). -/
inductive Slot where
  | fn (f : Func)
  | static (f : Func)
  | classm (f : Func)
  | bound (f : Func) (c : Cls)
deriving DecidableEq, Repr

/-- All class dictionaries of the process. -/
abbrev Heap := Cls → Attr → Option Slot

/-- `setattr(c, a, v)` on a class. -/
def Heap.set (h : Heap) (c : Cls) (a : Attr) (v : Slot) : Heap :=
  fun c' a' => if c' = c ∧ a' = a then some v else h c' a'

/-- Raw lookup along the MRO (`mro c` lists `c` first). -/
def lookup (mro : Cls → List Cls) (h : Heap) (c : Cls) (a : Attr) : Option Slot :=
  (mro c).findSome? fun d => h d a

/-- `getattr(c, a)` for a class `c`: the descriptor protocol unwraps staticmethods and binds
classmethods. The result is again something that can be stored with `setattr`. -/
def getattr (mro : Cls → List Cls) (h : Heap) (c : Cls) (a : Attr) : Option Slot :=
  (lookup mro h c a).map fun
    | .fn f => .fn f
    | .static f => .fn f
    | .classm f => .bound f c
    | .bound f d => .bound f d

/-- The function behind a looked-up object; attribute access on it (`__name__`, `__qualname__`,
`__wrapped__`) goes to this function also for bound methods. -/
def Slot.func : Slot → Func
  | .fn f => f
  | .static f => f
  | .classm f => f
  | .bound f _ => f

inductive Exn where
  | attributeError
  | valueError
  | user (n : Nat)
deriving DecidableEq, Repr

/-- `cached(f)` (utils/cache.py:99-142) as a new function object. -/
def cached (f : Func) : Func := { f with layers := f.layers + 1 }

/-- `_extract_class_and_name` (utils/replace.py:86-134). -/
def extract (s : Slot) : Except Exn (Cls × Attr) :=
  match s.func.owner with
  | none => .error .valueError
  | some c => .ok (c, s.func.name)

/-- How the user names the method: `C.a` evaluated when the block is entered, or a reference
obtained earlier. -/
inductive Ref where
  | attr (c : Cls) (a : Attr)
  | obj (s : Slot)
deriving DecidableEq, Repr

def Ref.eval (mro : Cls → List Cls) (h : Heap) : Ref → Except Exn Slot
  | .attr c a => match getattr mro h c a with
    | some s => .ok s
    | none => .error .attributeError
  | .obj s => .ok s

/-- The part of `replace` before `yield` (utils/replace.py:56-76): returns the target, the method
to restore and the new method; no class is modified if this raises. -/
def enter (mro : Cls → List Cls) (h : Heap) (r : Ref) (g : Func) :
    Except Exn (Cls × Attr × Slot × Func) :=
  match r.eval mro h with
  | .error e => .error e
  | .ok s =>
    match extract s with
    | .error e => .error e
    | .ok (c, a) =>
      match getattr mro h c a with
      | none => .error .attributeError
      | some orig => .ok (c, a, orig, if orig.func.layers > 0 then cached g else g)

/-- Python code that contains `with replace(...)` blocks. `code` is any code that only reads class
attributes (it may raise), `ite` branches on them; `tryExcept` catches, `tryFinally` does not. -/
inductive Prog where
  | code (f : Heap → Option Exn)
  | seq (p q : Prog)
  | ite (b : Heap → Bool) (p q : Prog)
  | tryExcept (p q : Prog)
  | tryFinally (p q : Prog)
  | withReplace (r : Ref) (g : Func) (body : Prog)

/-- Execution: resulting class dictionaries and the exception that propagates, if any.
`withReplace` is utils/replace.py:56-82: enter, `setattr`, body, `setattr` in `finally`. -/
def run (mro : Cls → List Cls) : Prog → Heap → Heap × Option Exn
  | .code f, h => (h, f h)
  | .seq p q, h =>
    match run mro p h with
    | (h', some e) => (h', some e)
    | (h', none) => run mro q h'
  | .ite b p q, h => if b h then run mro p h else run mro q h
  | .tryExcept p q, h =>
    match run mro p h with
    | (h', some _) => run mro q h'
    | (h', none) => (h', none)
  | .tryFinally p q, h =>
    match run mro p h with
    | (h', e) => match run mro q h' with
      | (h'', some e') => (h'', some e')
      | (h'', none) => (h'', e)
  | .withReplace r g body, h =>
    match enter mro h r g with
    | .error e => (h, some e)
    | .ok (c, a, orig, new) =>
      match run mro body (h.set c a (.fn new)) with
      | (h', e) => (h'.set c a orig, e)

/-! ### Blocks that are not nested (threads, generators, manual `__enter__`/`__exit__`) -/

/-- One event of an interleaved history of several context-manager objects. -/
inductive Event where
  /-- `cm_i.__enter__()` for `cm_i = replace(r, g)` -/
  | enter (i : Nat) (r : Ref) (g : Func)
  /-- `cm_i.__exit__(...)` -/
  | exit (i : Nat)
deriving DecidableEq, Repr

/-- Executes a history; `saved i` is what `cm_i` will restore. An `enter` that raises and an
`exit` of a context that is not entered change nothing. -/
def runEvents (mro : Cls → List Cls) :
    List Event → Heap → (Nat → Option (Cls × Attr × Slot)) → Heap
  | [], h, _ => h
  | .enter i r g :: es, h, saved =>
    match enter mro h r g with
    | .error _ => runEvents mro es h saved
    | .ok (c, a, orig, new) =>
      runEvents mro es (h.set c a (.fn new)) (fun j => if j = i then some (c, a, orig) else saved j)
  | .exit i :: es, h, saved =>
    match saved i with
    | none => runEvents mro es h saved
    | some (c, a, orig) =>
      runEvents mro es (h.set c a orig) (fun j => if j = i then none else saved j)

end Verif.Replace

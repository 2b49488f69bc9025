/-
Model of `spflow.utils.cache` (C06): the per-traversal cache and the `@cached` decorator, over an
arbitrary graph of modules whose methods call each other.
-/
namespace Verif.CacheM

/-- Result of a Python call: a value (`none` is Python's `None`) or an exception. -/
inductive Res (V : Type) where
  | val (v : Option V)
  | exn (e : Nat)
deriving DecidableEq, Repr

/-- Body of a method as a program that calls other cached methods (a key is a pair of a method name
and a module, see `Cache.get`, cache.py:43-56); between the calls it computes anything from the
values it received. All calls pass the traversal's data and cache on, as the `log_likelihood`
implementations do (e.g. sum.py, product.py, cat.py: `inp.log_likelihood(data, cache=cache)`). -/
inductive Comp (K V : Type) where
  | ret (v : Option V)
  | raise (e : Nat)
  | call (k : K) (cont : Option V → Comp K V)

/-- A module graph: the body of every method for the data of a traversal. -/
abbrev Graph (D K V : Type) := D → K → Comp K V

section
variable {D K V : Type} [DecidableEq K]

/-! ### Uncached evaluation (the decorator removed) -/

/-- Exception number reserved for Python's RecursionError. -/
def recursionError : Nat := 0

def runU (rec : K → Res V) : Comp K V → Res V
  | .ret v => .val v
  | .raise e => .exn e
  | .call k cont => match rec k with
    | .val v => runU rec (cont v)
    | .exn e => .exn e

/-- Calls the undecorated method; `n` is the recursion depth the interpreter allows. -/
def evalU (g : K → Comp K V) : Nat → K → Res V
  | 0, _ => .exn recursionError
  | n + 1, k => runU (evalU g n) (g k)

/-! ### Cached evaluation -/

/-- The `Cache` (cache.py:24-97): `store k` is the entry for `(method, module)` if one was stored
(possibly Python's `None`); `log` records the executions of undecorated methods and is not part of
the code. -/
structure State (K V : Type) where
  store : K → Option (Option V)
  log : List K

def State.empty : State K V := ⟨fun _ => none, []⟩

/-- `Cache.get` (cache.py:43-56): a missing entry and a stored `None` are both `None`. -/
def State.get (s : State K V) (k : K) : Option V := (s.store k).join

/-- `Cache.set` (cache.py:58-69). -/
def State.set (s : State K V) (k : K) (v : Option V) : State K V :=
  { s with store := fun k' => if k' = k then some v else s.store k' }

def State.logged (s : State K V) (k : K) : State K V := { s with log := s.log ++ [k] }

def runC (rec : K → State K V → State K V × Res V) : Comp K V → State K V → State K V × Res V
  | .ret v, s => (s, .val v)
  | .raise e, s => (s, .exn e)
  | .call k cont, s => match rec k s with
    | (s', .val v) => runC rec (cont v) s'
    | (s', .exn e) => (s', .exn e)

/-- The `wrapper` of `cached` (cache.py:121-140) with a given cache: look up, else run the
undecorated method with the same cache and store its result; an exception stores nothing. -/
def evalC (g : K → Comp K V) : Nat → K → State K V → State K V × Res V
  | 0, _, s => (s, .exn recursionError)
  | n + 1, k, s =>
    match s.get k with
    | some v => (s, .val (some v))
    | none =>
      match runC (evalC g n) (g k) (s.logged k) with
      | (s', .val v) => (s'.set k v, .val v)
      | (s', .exn e) => (s', .exn e)

/-! ### Several threads sharing one Cache -/

/-- A thread inside a nest of cached calls: for every active call its key and what remains of its
caller's body; `cur` is what remains of the innermost body. -/
inductive Thread (K V : Type) where
  | running (stack : List (K × (Option V → Comp K V))) (key : K) (cur : Comp K V)
  | done (r : Res V)

/-- One atomic step of a thread (a `get`, a `set`, or raising). `get` takes no lock and `set` is
under a per-method lock (cache.py:43-69); each is atomic. When the outermost call finishes the
thread is done. -/
def Thread.step (g : K → Comp K V) (t : Thread K V) (s : State K V) : Thread K V × State K V :=
  match t with
  | .done r => (.done r, s)
  | .running _ _ (.raise e) => (.done (.exn e), s)
  | .running stack key (.ret v) =>
    match stack with
    | [] => (.done (.val v), s.set key v)
    | (key', cont) :: rest => (.running rest key' (cont v), s.set key v)
  | .running stack key (.call k cont) =>
    match s.get k with
    | some v => (.running stack key (cont (some v)), s)
    | none => (.running ((key, cont) :: stack) k (g k), s.logged k)

/-- Runs a schedule: a list of thread indices; each entry lets that thread make one step. -/
def runSchedule (g : K → Comp K V) :
    List Nat → (Nat → Thread K V) → State K V → (Nat → Thread K V) × State K V
  | [], ts, s => (ts, s)
  | i :: is, ts, s =>
    let (t', s') := (ts i).step g s
    runSchedule g is (fun j => if j = i then t' else ts j) s'

end
end Verif.CacheM

import Verif.InnerProps
import Verif.LogSpace
import Verif.LeafFit

/-!
# Model of SOCS: spflow/modules/sos/socs.py, learn/build_socs.py

Log-space values are modelled by `LogV`; `_signed_eval` is represented by the real number it encodes (C34 proves that
`(log|v|, sign v)` is what is computed as long as no weight is below the clamp).
-/

namespace Verif
namespace Inner

open IC

/-- A leaf cell at a possibly missing entry. -/
noncomputable def leafN (p : LeafPar) : Option ℝ → ℝ
  | none => 1
  | some t => dens p t

/-- The value a component takes on a row that may have missing entries: a leaf returns log-likelihood `0`, that is `1`,
at a missing entry (leaf.py:445-468, C01); sums and products are evaluated as usual.  (A `SignedCategorical` raises
instead, signed_categorical.py:138-142.) -/
noncomputable def IC.valueN (x : Row) : IC → ℕ → ℕ → ℕ → ℝ
  | leaf q _ _ par => fun f c r =>
    leafN (par f c r) (x (q.getD f 0))
  | cat1 n cs => fun f c r =>
    pickV (fun i : Fin n => IC.valueN x (cs i)) (locate (List.ofFn fun i : Fin n => F (cs i)) f).1
      (locate (List.ofFn fun i : Fin n => F (cs i)) f).2 c r
  | cat2 n cs => fun f c r =>
    pickV (fun i : Fin n => IC.valueN x (cs i)) (locate (List.ofFn fun i : Fin n => C (cs i)) c).1
      f (locate (List.ofFn fun i : Fin n => C (cs i)) c).2 r
  | prod c => fun _ ch r => ∏ f ∈ Finset.range (F c), IC.valueN x c f ch r
  | sum c _ _ w => fun f co r => ∑ i ∈ Finset.range (C c), w f i co r * IC.valueN x c f i r

/-- `SOCS.__init__`, socs.py:96-112. -/
def mkSocs (comps : List IC) : Except Exc (List IC) :=
  match comps with
  | [] => .error .valueError
  | c :: cs =>
    if (c :: cs).any (fun d => decide (d.vars ≠ c.vars)) then .error .shapeError
    else if (c :: cs).any (fun d => decide ((d.F, d.C, d.R) ≠ (c.F, c.C, c.R))) then .error .shapeError
    else .ok (c :: cs)

/-- The self inner products of the components, socs.py:131-135. -/
noncomputable def selfIps : List IC → Except Exc (List Mat)
  | [] => .ok []
  | c :: cs =>
    match ip c c with
    | .error e => .error e
    | .ok k =>
      match selfIps cs with
      | .error e => .error e
      | .ok ks => .ok (k :: ks)

/-- `Z[f,c,r]`, socs.py:131-137: sum of the diagonals. -/
def partition (ks : List Mat) (f c r : ℕ) : ℝ := (ks.map fun k => k f c c r).sum

/-- `SOCS._log_partition`, socs.py:121-141. -/
noncomputable def logZ (ks : List Mat) (f c r : ℕ) : ℝ := Real.log (clampMin (partition ks f c r))

/-- `2.0 * logabs` of the value `v`. -/
noncomputable def twoLogAbs (v : ℝ) : LogV := logL |v| + logL |v|

/-- `SOCS.log_likelihood` for one row and one output entry, socs.py:143-155. -/
noncomputable def socsLL (comps : List IC) (x : Row) (f c r : ℕ) : Except Exc LogV :=
  match selfIps comps with
  | .error e => .error e
  | .ok ks =>
    .ok (lse comps.length (fun i => twoLogAbs ((comps.getD i (leaf [] 0 0 fun _ _ _ => .bern 0)).valueN x f c r)) +
      ((-(logZ ks f c r) : ℝ) : LogV))

/-! ## `SOCS.marginalize` -/

/-- Positions of a leaf that survive, leaf.py:1098-1100. -/
def keptPos (M : List Var) (q : List Var) : List ℕ := (List.range q.length).filter fun i => !M.contains (q.getD i 0)

/-- Features that survive below a sum, sum.py:483-485. -/
def keptFeat (M : List Var) (c : IC) : List ℕ := (List.range c.F).filter fun f => !(c.fs f ⊆ M.toFinset)

/-- End of `Cat.marginalize` with `prune`, cat.py:213-221. -/
def finCat (mk : (n : ℕ) → (Fin n → IC) → IC) : List IC → Option IC
  | [] => none
  | [c] => some c
  | l => some (mk l.length l.get)

/-- `marginalize(marg_rvs, prune=True)` of a component (leaves with the base-class method): leaf.py:1074-1119,
cat.py:180-223, product.py:141-186, sum.py:436-521.  The constructors' re-checks are not modelled. -/
def margI (M : List Var) : IC → Option IC
  | leaf q C R par =>
    if (q.filter fun v => !M.contains v).isEmpty then none
    else some (leaf (q.filter fun v => !M.contains v) C R fun f => par ((keptPos M q).getD f 0))
  | cat1 n cs => finCat cat1 ((List.ofFn fun i : Fin n => margI M (cs i)).filterMap id)
  | cat2 n cs => finCat cat2 ((List.ofFn fun i : Fin n => margI M (cs i)).filterMap id)
  | prod c =>
    match margI M c with
    | none => none
    | some c' => if c'.F = 1 then some c' else some (prod c')
  | sum c Co R w =>
    match margI M c with
    | none => none
    | some c' => some (sum c' Co R fun f => w ((keptFeat M c).getD f 0))

/-- All results, or `None` if one is `None`, socs.py:172-178. -/
def allSome : List (Option IC) → Option (List IC)
  | [] => some []
  | none :: _ => none
  | some c :: l =>
    match allSome l with
    | none => none
    | some l' => some (c :: l')

/-- `SOCS.marginalize`, socs.py:166-183. -/
def socsMarg (M : List Var) (comps : List IC) : Except Exc (Option (List IC)) :=
  match allSome (comps.map (margI M)) with
  | none => .ok none
  | some l =>
    match mkSocs l with
    | .error e => .error e
    | .ok l' => .ok (some l')

/-! ## `build_abs_weight_proposal` -/

/-- One row of `|w| + eps`, normalised: build_socs.py:125-128, 140-141. -/
noncomputable def absNorm (eps : ℝ) (n : ℕ) (w : ℕ → ℝ) (i : ℕ) : ℝ :=
  (|w i| + eps) / max (∑ j ∈ Finset.range n, (|w j| + eps)) (10 ^ (-12 : ℤ))

/-- `build_abs_weight_proposal`, build_socs.py:104-176.  `isSigned` tells which sum nodes are
`SignedSum`s; these are converted, a standard `Sum` is left alone. -/
noncomputable def absProposal (eps : ℝ) (isSigned : IC → Bool) : IC → IC
  | leaf q C R par => leaf q C R fun f c r =>
    match par f c r with
    | .scat K w => .cat K (absNorm eps K w)
    | p => p
  | cat1 n cs => cat1 n fun i => absProposal eps isSigned (cs i)
  | cat2 n cs => cat2 n fun i => absProposal eps isSigned (cs i)
  | prod c => prod (absProposal eps isSigned c)
  | sum c Co R w =>
    sum (absProposal eps isSigned c) Co R
      (if isSigned (sum c Co R w) then fun f i co r => absNorm eps (C c) (fun j => w f j co r) i else w)

/-! ## The Metropolis-Hastings step -/

open LeafFit (Fl)

/-- A log value as a float. -/
def toFl : LogV → Fl
  | ⊥ => .ninf
  | (x : ℝ) => .fin x

/-- IEEE subtraction. -/
def fsub : Fl → Fl → Fl
  | .nan, _ | _, .nan => .nan
  | .fin a, .fin b => .fin (a - b)
  | .pinf, .pinf | .ninf, .ninf => .nan
  | .pinf, _ => .pinf
  | .ninf, _ => .ninf
  | .fin _, .pinf => .ninf
  | .fin _, .ninf => .pinf

/-- IEEE addition. -/
def fadd : Fl → Fl → Fl
  | .nan, _ | _, .nan => .nan
  | .fin a, .fin b => .fin (a + b)
  | .pinf, .ninf | .ninf, .pinf => .nan
  | .pinf, _ | _, .pinf => .pinf
  | .ninf, _ | _, .ninf => .ninf

/-- `torch.minimum(a, 0)` (NaN propagates). -/
noncomputable def fmin0 : Fl → Fl
  | .nan => .nan
  | .pinf => .fin 0
  | .ninf => .ninf
  | .fin a => .fin (min a 0)

/-- `log(u) < a` for `u` in `[0,1)`, where `log 0 = -inf`; comparisons with NaN are false. -/
def logLt (u : ℝ) : Fl → Prop
  | .nan => False
  | .pinf => True
  | .ninf => False
  | .fin a => logL u < (a : LogV)

/-- `log_alpha`, socs.py:297. -/
def logAlpha (tx tp qx qp : LogV) : Fl := fadd (fsub (toFl tp) (toFl tx)) (fsub (toFl qx) (toFl qp))

/-- `accept`, socs.py:298-299, as a function of the uniform number `u`. -/
def accepts (tx tp qx qp : LogV) (u : ℝ) : Prop := logLt u (fmin0 (logAlpha tx tp qx qp))

end Inner
end Verif

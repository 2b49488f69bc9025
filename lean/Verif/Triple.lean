import Verif.Inner
import Verif.Socs

/-!
# Model of exact triple products (spflow/utils/inner_product_core.py:611-1093) and of `ExpSOCS` (zoo/sos/exp_socs.py)

Circuits, leaf parameters and their values are those of `Verif.Inner`.  The memo of `triple_product_tensor` (628-639) only
stores results of earlier identical calls, or the same tensor with the first two channel axes exchanged
(`C77_symmetric`), and is not modelled.
-/

namespace Verif
namespace Inner

open IC

/-- One entry of the leaf branch of `triple_product_tensor`, inner_product_core.py:666-968 (the modelled families; all
others raise, as they do in the code unless they are `Hypergeometric`, `NegativeBinomial` (see C90), `Histogram` or
`PiecewiseLinear`). -/
noncomputable def tpPar : LeafPar → LeafPar → LeafPar → Except Exc ℝ
  -- 667-686 (also reached by every mixture of `Categorical` and `SignedCategorical`)
  | .cat K w1, .cat K' w2, .cat K'' w3 => catTriple K w1 K' w2 K'' w3
  | .cat K w1, .cat K' w2, .scat K'' w3 => catTriple K w1 K' w2 K'' w3
  | .cat K w1, .scat K' w2, .cat K'' w3 => catTriple K w1 K' w2 K'' w3
  | .cat K w1, .scat K' w2, .scat K'' w3 => catTriple K w1 K' w2 K'' w3
  | .scat K w1, .cat K' w2, .cat K'' w3 => catTriple K w1 K' w2 K'' w3
  | .scat K w1, .cat K' w2, .scat K'' w3 => catTriple K w1 K' w2 K'' w3
  | .scat K w1, .scat K' w2, .cat K'' w3 => catTriple K w1 K' w2 K'' w3
  | .scat K w1, .scat K' w2, .scat K'' w3 => catTriple K w1 K' w2 K'' w3
  -- 687-702
  | .normal m1 s1, .normal m2 s2, .normal m3 s3 =>
    let s1 := clampMin s1
    let s2 := clampMin s2
    let s3 := clampMin s3
    let t1 := 1 / s1 ^ 2
    let t2 := 1 / s2 ^ 2
    let t3 := 1 / s3 ^ 2
    let t := t1 + t2 + t3
    let m := (t1 * m1 + t2 * m2 + t3 * m3) / t
    let quad := (t1 * m1 ^ 2 + t2 * m2 ^ 2 + t3 * m3 ^ 2) - t * m ^ 2
    let pref := -Real.log (2 * Real.pi) - (Real.log s1 + Real.log s2 + Real.log s3) - 1 / 2 * Real.log t
    .ok (Real.exp (pref - 1 / 2 * quad))
  -- 703-710
  | .bern p1, .bern p2, .bern p3 => .ok ((1 - p1) * (1 - p2) * (1 - p3) + p1 * p2 * p3)
  -- 718-731
  | .unif a1 b1, .unif a2 b2, .unif a3 b3 =>
    .ok (max (min (min b1 b2) b3 - max (max a1 a2) a3) 0 /
      (clampMin (b1 - a1) * clampMin (b2 - a2) * clampMin (b3 - a3)))
  -- 732-750
  | .geom p1, .geom p2, .geom p3 =>
    let p1 := min (max p1 0) 1
    let p2 := min (max p2 0) 1
    let p3 := min (max p3 0) 1
    .ok (p1 * p2 * p3 / clampMin (1 - (1 - p1) * (1 - p2) * (1 - p3)))
  -- 751-773
  | .binom n1 p1, .binom n2 p2, .binom n3 p3 =>
    .ok (∑ k ∈ Finset.range (max (max n1 n2) n3 + 1),
      if k ≤ n1 ∧ k ≤ n2 ∧ k ≤ n3 then
        Real.exp (binomLogpmf k n1 p1 + binomLogpmf k n2 p2 + binomLogpmf k n3 p3) else 0)
  -- 965-968
  | _, _, _ => .error .unsupported
where
  /-- 673-685. -/
  catTriple (K : ℕ) (w1 : ℕ → ℝ) (K' : ℕ) (w2 : ℕ → ℝ) (K'' : ℕ) (w3 : ℕ → ℝ) : Except Exc ℝ :=
    if K ≠ K' ∨ K ≠ K'' then .error .shapeError else .ok (∑ k ∈ Finset.range K, w1 k * w2 k * w3 k)

/-- The tensor `[feature, channel of a, channel of b, channel of c, repetition]`. -/
abbrev Mat3 := ℕ → ℕ → ℕ → ℕ → ℕ → ℝ

/-- Entry of block number `i`. -/
def pick3 {n : ℕ} (k : Fin n → Mat3) (i : ℕ) : Mat3 := if h : i < n then k ⟨i, h⟩ else fun _ _ _ _ _ => 0

/-- The checks of `triple_product_tensor`, inner_product_core.py:641-650. -/
def tpChecks (a b c : IC) : Except Exc Unit :=
  if a.vars ≠ b.vars then .error .shapeError
  else if a.vars ≠ c.vars then .error .shapeError
  else if a.F ≠ b.F ∨ a.F ≠ c.F then .error .shapeError
  else if a.R ≠ b.R ∨ a.R ≠ c.R then .error .shapeError
  else .ok ()

/-- `isinstance(·, Cat)`. -/
def IC.isCat : IC → Bool
  | cat1 _ _ => true
  | cat2 _ _ => true
  | _ => false

/-- `triple_product_tensor`, inner_product_core.py:619-1078: checks, leaves (666-972), `Cat(dim=1)` (978-996),
`Cat(dim=2)` (998-1035), `Product` (1039-1051), sums (1053-1070), everything else raises (977, 1072-1074).  A `Cat` has at
least one input (its constructor raises otherwise). -/
noncomputable def tp : IC → IC → IC → Except Exc Mat3
  | leaf q C1 R1 par1, b, c =>
    match tpChecks (leaf q C1 R1 par1) b c with
    | .error e => .error e
    | .ok _ =>
      match b, c with
      | leaf _ C2 _ par2, leaf _ C3 _ par3 =>
        match seqFin (n := q.length) fun f => seqFin (n := C1) fun i => seqFin (n := C2) fun j => seqFin (n := C3) fun l =>
            seqFin (n := R1) fun r => tpPar (par1 f i r) (par2 f j r) (par3 f l r) with
        | .error e => .error e
        | .ok k => .ok fun f i j l r =>
          if h : f < q.length ∧ i < C1 ∧ j < C2 ∧ l < C3 ∧ r < R1 then
            k ⟨f, h.1⟩ ⟨i, h.2.1⟩ ⟨j, h.2.2.1⟩ ⟨l, h.2.2.2.1⟩ ⟨r, h.2.2.2.2⟩ else 0
      | _, _ => .error .unsupported
  | cat1 n cs, b, c =>
    match tpChecks (cat1 n cs) b c with
    | .error e => .error e
    | .ok _ =>
      match b, c with
      | cat1 m ds, cat1 m' es =>
        if h : n = m ∧ n = m' then
          match seqFin fun i : Fin n => tp (cs i) (ds (i.cast h.1)) (es (i.cast h.2)) with
          | .error e => .error e
          | .ok k => .ok fun f i j l r =>
            pick3 k (locate (List.ofFn fun i : Fin n => F (cs i)) f).1 (locate (List.ofFn fun i : Fin n => F (cs i)) f).2
              i j l r
        else .error .shapeError
      | b, c => if b.isCat && c.isCat then .error .shapeError else .error .unsupported
  | cat2 n cs, b, c =>
    match tpChecks (cat2 n cs) b c with
    | .error e => .error e
    | .ok _ =>
      match b, c with
      | cat2 m ds, cat2 m' es =>
        match seqFin fun i : Fin n => seqFin fun j : Fin m => seqFin fun l : Fin m' => tp (cs i) (ds j) (es l) with
        | .error e => .error e
        | .ok k => .ok fun f i j l r =>
          let p := locate (List.ofFn fun i : Fin n => C (cs i)) i
          let p' := locate (List.ofFn fun j : Fin m => C (ds j)) j
          let p'' := locate (List.ofFn fun l : Fin m' => C (es l)) l
          pick3 (fun i' : Fin n => pick3 (fun j' : Fin m => pick3 (k i' j') p''.1) p'.1) p.1 f p.2 p'.2 p''.2 r
      | b, c => if b.isCat && c.isCat then .error .shapeError else .error .unsupported
  | prod a, b, c =>
    match tpChecks (prod a) b c with
    | .error e => .error e
    | .ok _ =>
      match b, c with
      | prod b, prod c =>
        match tp a b c with
        | .error e => .error e
        | .ok k => .ok fun _ i j l r => ∏ f ∈ Finset.range (F a), k f i j l r
      | _, _ => .error .unsupported
  | sum a Co R1 w, b, c =>
    match tpChecks (sum a Co R1 w) b c with
    | .error e => .error e
    | .ok _ =>
      match b, c with
      | sum b _ _ w', sum c _ _ w'' =>
        match tp a b c with
        | .error e => .error e
        | .ok k => .ok fun f x y z r =>
          ∑ i ∈ Finset.range (C a), ∑ j ∈ Finset.range (C b), ∑ l ∈ Finset.range (C c),
            w f i x r * w' f j y r * w'' f l z r * k f i j l r
      | _, _ => .error .unsupported

/-- `triple_product_scalar`, inner_product_core.py:1081-1093. -/
noncomputable def tpScalar (a b c : IC) : Except Exc ℝ :=
  if (a.F, a.C, a.R) ≠ (1, 1, 1) ∨ (b.F, b.C, b.R) ≠ (1, 1, 1) ∨ (c.F, c.C, c.R) ≠ (1, 1, 1) then .error .shapeError
  else
    match tp a b c with
    | .error e => .error e
    | .ok k => .ok (k 0 0 0 0 0)

/-! ## ExpSOCS -/

/-- An `ExpSOCS` module. -/
structure Exp where
  /-- the monotone circuit -/
  mono : IC
  /-- the squared circuits -/
  comps : List IC

/-- The checks of one component, exp_socs.py:51-58. -/
def expCheck (m : IC) : List IC → Except Exc Unit
  | [] => .ok ()
  | c :: cs =>
    if (c.F, c.C, c.R) ≠ (1, 1, 1) then .error .shapeError
    else if c.vars ≠ m.vars then .error .shapeError
    else expCheck m cs

/-- `ExpSOCS.__init__`, exp_socs.py:39-64. -/
def mkExp (m : IC) (comps : List IC) : Except Exc Exp :=
  if comps.length < 1 then .error .valueError
  else if (m.F, m.C, m.R) ≠ (1, 1, 1) then .error .shapeError
  else
    match expCheck m comps with
    | .error e => .error e
    | .ok _ => .ok ⟨m, comps⟩

/-- `z_parts`, exp_socs.py:76-80. -/
noncomputable def zParts (m : IC) : List IC → Except Exc (List ℝ)
  | [] => .ok []
  | c :: cs =>
    match tpScalar c c m with
    | .error e => .error e
    | .ok z =>
      match zParts m cs with
      | .error e => .error e
      | .ok zs => .ok (z :: zs)

/-- `ExpSOCS._log_partition`, exp_socs.py:70-87 (without the cache). -/
noncomputable def Exp.logZ (e : Exp) : Except Exc ℝ :=
  match zParts e.mono e.comps with
  | .error x => .error x
  | .ok zs => .ok (Real.log (clampMin (max zs.sum 0)))

/-- `ExpSOCS.log_likelihood` for one row, exp_socs.py:89-102.  The monotone circuit's log-likelihood is the logarithm of
its value (C09); `_signed_eval` of a component is represented by the number it encodes (C34). -/
noncomputable def Exp.logLik (e : Exp) (x : Row) : Except Exc LogV :=
  match e.logZ with
  | .error er => .error er
  | .ok z => .ok (logL (e.mono.valueN x 0 0 0) +
      lse e.comps.length (fun i => twoLogAbs ((e.comps.getD i (leaf [] 0 0 fun _ _ _ => .bern 0)).valueN x 0 0 0)) +
      ((-z : ℝ) : LogV))

/-- `ExpSOCS.marginalize`, exp_socs.py:113-132. -/
def Exp.marg (M : List Var) (e : Exp) : Except Exc (Option Exp) :=
  match margI M e.mono with
  | none => .ok none
  | some m =>
    match allSome (e.comps.map (margI M)) with
    | none => .ok none
    | some l =>
      match mkExp m l with
      | .error er => .error er
      | .ok e' => .ok (some e')

end Inner
end Verif

import Verif.Circuit
import Verif.CircuitLemmas
import Mathlib.MeasureTheory.Integral.Bochner.Basic
import Mathlib.MeasureTheory.Constructions.Pi
import Mathlib.MeasureTheory.Integral.Prod
import Mathlib.Analysis.SpecialFunctions.Gamma.Basic
import Mathlib.Analysis.SpecialFunctions.Log.Basic

/-!
# Model of exact inner products: spflow/utils/inner_product_core.py, and of SOCS densities (modules/sos/socs.py)

Circuits are trees of leaf modules, `Cat`, `Product` and (signed) `Sum`.  Values are real numbers: this is what
`log_likelihood` (C09) and `_signed_eval` (C34) represent in log space.  The memo of `inner_product_matrix`
(480-491, 525-527, …) only stores results of earlier identical calls, or their transpose; it is
modelled in IpMemo.lean (C87).
-/

open MeasureTheory

namespace Verif
namespace Inner

/-- Parameters of one leaf cell (feature, channel, repetition). `scat`: zoo/sos/signed_categorical.py. -/
inductive LeafPar where
  | bern (p : ℝ)
  | cat (K : ℕ) (w : ℕ → ℝ)
  | scat (K : ℕ) (w : ℕ → ℝ)
  | expo (rate : ℝ)
  | unif (low high : ℝ)
  | geom (p : ℝ)
  | normal (loc scale : ℝ)
  | laplace (loc scale : ℝ)
  | logNormal (loc scale : ℝ)
  | poisson (rate : ℝ)
  | gamma (conc rate : ℝ)
  | binom (n : ℕ) (p : ℝ)

/-- The circuit modules handled by `inner_product_matrix`, inner_product_core.py:468-592.  `sum c Co R w` is a `Sum` or a
`SignedSum` with weights `w feature in-channel out-channel repetition`. -/
inductive IC where
  | leaf (q : List Var) (C R : ℕ) (par : ℕ → ℕ → ℕ → LeafPar)
  | cat1 (n : ℕ) (cs : Fin n → IC)
  | cat2 (n : ℕ) (cs : Fin n → IC)
  | prod (c : IC)
  | sum (c : IC) (Co R : ℕ) (w : ℕ → ℕ → ℕ → ℕ → ℝ)

/-- `clamp_min(1e-30)`. -/
noncomputable def clampMin (x : ℝ) : ℝ := max x (10 ^ (-30 : ℤ))

/-- `torch.isclose(x, y)` with its default tolerances. -/
def isClose (x y : ℝ) : Prop := |x - y| ≤ 10 ^ (-8 : ℤ) + 10 ^ (-5 : ℤ) * |y|

/-- `torch.i0`, the modified Bessel function of order zero: `Σ_k (z²/4)^k / (k!)²`. -/
noncomputable def besselI0 (z : ℝ) : ℝ := ∑' k : ℕ, (z ^ 2 / 4) ^ k / (k.factorial : ℝ) ^ 2

/-- `torch.lgamma` at positive arguments. -/
noncomputable def lgamma (x : ℝ) : ℝ := Real.log (Real.Gamma x)

/-- `_binomial_logpmf`, inner_product_core.py:62-66. -/
noncomputable def binomLogpmf (k n : ℕ) (p : ℝ) : ℝ :=
  (lgamma (n + 1) - lgamma (k + 1) - lgamma ((n : ℝ) - k + 1)) + k * Real.log (clampMin p) +
    ((n : ℝ) - k) * Real.log (clampMin (1 - p))

open Classical in
/-- `leaf_inner_product` of one pair of cells, inner_product_core.py:112-456 (the modelled families; all others raise
here, as unsupported pairs do in the code). -/
noncomputable def ipPar : LeafPar → LeafPar → Except Exc ℝ
  -- 132-135
  | .bern p1, .bern p2 => .ok (p1 * p2 + (1 - p1) * (1 - p2))
  -- 137-142
  | .cat K w1, .cat K' w2 => if K ≠ K' then .error .shapeError else .ok (∑ k ∈ Finset.range K, w1 k * w2 k)
  -- 144-163
  | .scat K w1, .scat K' w2 => if K ≠ K' then .error .shapeError else .ok (∑ k ∈ Finset.range K, w1 k * w2 k)
  | .scat K w1, .cat K' w2 => if K ≠ K' then .error .shapeError else .ok (∑ k ∈ Finset.range K, w1 k * w2 k)
  | .cat K w1, .scat K' w2 => if K ≠ K' then .error .shapeError else .ok (∑ k ∈ Finset.range K, w1 k * w2 k)
  -- 165-168
  | .expo r1, .expo r2 => .ok (r1 * r2 / clampMin (r1 + r2))
  -- 225-235
  | .unif a1 b1, .unif a2 b2 =>
    .ok (max (min b1 b2 - max a1 a2) 0 / (clampMin (b1 - a1) * clampMin (b2 - a2)))
  -- 237-243
  | .geom p1, .geom p2 =>
    .ok ((min (max p1 0) 1 * min (max p2 0) 1) /
      clampMin (1 - (1 - min (max p1 0) 1) * (1 - min (max p2 0) 1)))
  -- 122-130
  | .normal m1 s1, .normal m2 s2 =>
    .ok (Real.exp (-(1 / 2) * Real.log (2 * Real.pi * (s1 ^ 2 + s2 ^ 2)) + -(m1 - m2) ^ 2 / (2 * (s1 ^ 2 + s2 ^ 2))))
  -- 170-182
  | .laplace m1 s1, .laplace m2 s2 =>
    let b1 := clampMin s1
    let b2 := clampMin s2
    let d := |m1 - m2|
    let tails := (Real.exp (-d / b1) + Real.exp (-d / b2)) / (4 * (b1 + b2))
    .ok (if isClose b1 b2 then tails + Real.exp (-d / b1) * d / (4 * b1 ^ 2)
      else tails + (Real.exp (-d / b1) - Real.exp (-d / b2)) / (4 * (b1 - b2)))
  -- 184-195
  | .logNormal m1 s1, .logNormal m2 s2 =>
    let s1 := clampMin s1
    let s2 := clampMin s2
    let a1 := 1 / s1 ^ 2
    let a2 := 1 / s2 ^ 2
    let D := (a1 * m1 + a2 * m2) - 1
    let E := -(1 / 2) * (a1 * m1 ^ 2 + a2 * m2 ^ 2)
    .ok (Real.exp (-(1 / 2) * Real.log (2 * Real.pi * (s1 ^ 2 + s2 ^ 2)) + E + D ^ 2 / (2 * (a1 + a2))))
  -- 197-202
  | .poisson l1, .poisson l2 =>
    .ok (Real.exp (-(max l1 0 + max l2 0)) * besselI0 (2 * Real.sqrt (max (max l1 0 * max l2 0) 0)))
  -- 204-222
  | .gamma a1 b1, .gamma a2 b2 =>
    let a1 := clampMin a1
    let a2 := clampMin a2
    let b1 := clampMin b1
    let b2 := clampMin b2
    let s := a1 + a2 - 1
    if s ≤ 0 then .error .unsupported
    else .ok (Real.exp (a1 * Real.log b1 + a2 * Real.log b2 + lgamma s - lgamma a1 - lgamma a2 - s * Real.log (b1 + b2)))
  -- 245-258: terms with k above one of the counts are masked
  | .binom n1 p1, .binom n2 p2 =>
    .ok (∑ k ∈ Finset.range (max n1 n2 + 1),
      if k ≤ n1 ∧ k ≤ n2 then Real.exp (binomLogpmf k n1 p1 + binomLogpmf k n2 p2) else 0)
  -- 452-456
  | _, _ => .error .unsupported

/-- All results, or one of the errors. -/
def seqFin {α : Type} : {n : ℕ} → (Fin n → Except Exc α) → Except Exc (Fin n → α)
  | 0, _ => .ok Fin.elim0
  | _ + 1, g =>
    match g 0 with
    | .error e => .error e
    | .ok a =>
      match seqFin fun i => g i.succ with
      | .error e => .error e
      | .ok rest => .ok (Fin.cons a rest)

namespace IC

/-- Number of features. -/
def F : IC → ℕ
  | leaf q _ _ _ => q.length
  | cat1 n cs => (List.ofFn fun i : Fin n => F (cs i)).sum
  | cat2 n cs => if h : 0 < n then F (cs ⟨0, h⟩) else 0
  | prod _ => 1
  | sum c _ _ _ => F c

/-- Number of channels. -/
def C : IC → ℕ
  | leaf _ C _ _ => C
  | cat1 n cs => if h : 0 < n then C (cs ⟨0, h⟩) else 0
  | cat2 n cs => (List.ofFn fun i : Fin n => C (cs i)).sum
  | prod c => C c
  | sum _ Co _ _ => Co

/-- Number of repetitions. -/
def R : IC → ℕ
  | leaf _ _ R _ => R
  | cat1 n cs => if h : 0 < n then R (cs ⟨0, h⟩) else 0
  | cat2 n cs => if h : 0 < n then R (cs ⟨0, h⟩) else 0
  | prod c => R c
  | sum _ _ R _ => R

/-- The set of variables, `module.scope` (compared as a set of query variables by `Scope.__eq__`). -/
def vars : IC → Finset Var
  | leaf q _ _ _ => q.toFinset
  | cat1 n cs => Finset.univ.biUnion fun i : Fin n => vars (cs i)
  | cat2 n cs => if h : 0 < n then vars (cs ⟨0, h⟩) else ∅
  | prod c => vars c
  | sum c _ _ _ => vars c

end IC

/-- Position of `ch` in blocks of the given sizes: block number and offset. -/
def locate : List ℕ → ℕ → ℕ × ℕ
  | [], ch => (0, ch)
  | n :: ns, ch => if ch < n then (0, ch) else ((locate ns (ch - n)).1 + 1, (locate ns (ch - n)).2)

/-- The tensor `[feature, channel of a, channel of b, repetition]`. -/
abbrev Mat := ℕ → ℕ → ℕ → ℕ → ℝ

/-- `torch.cat(parts, dim=0)` / block assembly: entry of block number `i`. -/
def pick {n : ℕ} (k : Fin n → Mat) (i : ℕ) : Mat := if h : i < n then k ⟨i, h⟩ else fun _ _ _ _ => 0

open IC in
/-- `inner_product_matrix`, inner_product_core.py:468-592: checks (493-497), leaves (510-514), `Cat(dim=1)` (517-532),
`Cat(dim=2)` (534-571), `Product` (573-580), sums (582-592), everything else raises.  A `Cat` has at least one input
(its constructor raises otherwise). -/
noncomputable def ip : IC → IC → Except Exc Mat
  | leaf q C1 R1 par1, leaf q' C2 R2 par2 =>
    if q.toFinset ≠ q'.toFinset then .error .shapeError
    else if q.length ≠ q'.length then .error .shapeError
    else if R1 ≠ R2 then .error .shapeError
    else
      match seqFin (n := q.length) fun f => seqFin (n := C1) fun i => seqFin (n := C2) fun j => seqFin (n := R1) fun r =>
          ipPar (par1 f i r) (par2 f j r) with
      | .error e => .error e
      | .ok k => .ok fun f i j r =>
        if h : f < q.length ∧ i < C1 ∧ j < C2 ∧ r < R1 then k ⟨f, h.1⟩ ⟨i, h.2.1⟩ ⟨j, h.2.2.1⟩ ⟨r, h.2.2.2⟩ else 0
  | cat1 n cs, cat1 m ds =>
    if vars (cat1 n cs) ≠ vars (cat1 m ds) then .error .shapeError
    else if F (cat1 n cs) ≠ F (cat1 m ds) then .error .shapeError
    else if R (cat1 n cs) ≠ R (cat1 m ds) then .error .shapeError
    else if h : n = m then
      match seqFin fun i : Fin n => ip (cs i) (ds (i.cast h)) with
      | .error e => .error e
      | .ok k => .ok fun f i j r =>
        let p := locate (List.ofFn fun i : Fin n => F (cs i)) f
        pick k p.1 p.2 i j r
    else .error .shapeError
  | cat2 n cs, cat2 m ds =>
    if vars (cat2 n cs) ≠ vars (cat2 m ds) then .error .shapeError
    else if F (cat2 n cs) ≠ F (cat2 m ds) then .error .shapeError
    else if R (cat2 n cs) ≠ R (cat2 m ds) then .error .shapeError
    else
      match seqFin fun i : Fin n => seqFin fun j : Fin m => ip (cs i) (ds j) with
      | .error e => .error e
      | .ok k => .ok fun f i j r =>
        let p := locate (List.ofFn fun i : Fin n => C (cs i)) i
        let p' := locate (List.ofFn fun j : Fin m => C (ds j)) j
        pick (fun i' : Fin n => pick (k i') p'.1) p.1 f p.2 p'.2 r
  | prod c, prod d =>
    if vars c ≠ vars d then .error .shapeError
    else if R c ≠ R d then .error .shapeError
    else
      match ip c d with
      | .error e => .error e
      | .ok k => .ok fun _ i j r => ∏ f ∈ Finset.range (F c), k f i j r
  | sum c _ R1 w, sum d _ R2 w' =>
    if vars c ≠ vars d then .error .shapeError
    else if F c ≠ F d then .error .shapeError
    else if R1 ≠ R2 then .error .shapeError
    else
      match ip c d with
      | .error e => .error e
      | .ok k => .ok fun f a b r =>
        ∑ i ∈ Finset.range (C c), ∑ j ∈ Finset.range (C d), w f i a r * k f i j r * w' f j b r
  | _, _ => .error .unsupported

/-- `log_self_inner_product_scalar`, inner_product_core.py:595-608. -/
noncomputable def logSelf (c : IC) : Except Exc ℝ :=
  if (c.F, c.C, c.R) ≠ (1, 1, 1) then .error .shapeError
  else
    match ip c c with
    | .error e => .error e
    | .ok k => .ok (Real.log (clampMin (max (k 0 0 0 0) 0)))

end Inner
end Verif

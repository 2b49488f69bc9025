import Verif.ApcEnc

/-!
# C75: the joint APC encoder
-/

open MeasureTheory

namespace Verif.Apc

open Finset Verif.Rat Verif.Circ
open Verif.Prog hiding bind

/-! ### Specification -/

/-- The observed block of a complete joint row. -/
def xs (nx : ℕ) (y : Var → ℝ) : ℕ → Option ℝ := fun i => if i < nx then some (y (i : ℤ)) else none

/-- The latent block of a complete joint row. -/
def zs (nx nz : ℕ) (y : Var → ℝ) : ℕ → Option ℝ := fun j => if j < nz then some (y ((nx + j : ℕ) : ℤ)) else none

/-- A block of NaNs. -/
def nans : ℕ → Option ℝ := fun _ => none

/-- A tensor of `B` rows whose other dimensions multiply to `n`. -/
def Shaped (n B : ℕ) (t : Batch) : Prop := ∃ k rest, t.dims = B :: k :: rest ∧ (k :: rest).prod = n

/-- The leaf covers exactly the expected columns, in any order. -/
def Covers (c : Circ) (cols : List Var) : Prop :=
  (∀ v, v ∈ (scope c).query ↔ v ∈ cols) ∧ (scope c).query.length = cols.length

/-- The factories return leaves `xl` and `zl` for the two blocks of columns. -/
structure Factories (a : EncArgs) (xf zf : List Var → ℕ → ℕ → Option Circ) (xl zl : Circ) : Prop where
  xok : xf (xCols a.nx.toNat) a.leaves a.R = some xl
  zok : zf (zCols a.nx.toNat a.nz.toNat) a.leaves a.R = some zl
  xcov : Covers xl (xCols a.nx.toNat)
  zcov : Covers zl (zCols a.nx.toNat a.nz.toNat)

variable {a : EncArgs} {xf zf : List Var → ℕ → ℕ → Option Circ} {xl zl : Circ} {d : Draws} {μ : Var → Measure ℝ} {C Rl : ℕ}

/-! ### Constructor -/

theorem validateLeaf_some {c : Circ} {cols : List Var} : validateLeaf (some c) cols = .ok c ↔ Covers c cols := by
  unfold validateLeaf Covers
  have e : (scope c).query.toFinset = cols.toFinset ↔ ∀ v, v ∈ (scope c).query ↔ v ∈ cols := by
    rw [Finset.ext_iff]
    simp only [List.mem_toFinset]
  by_cases h : (scope c).query.toFinset ≠ cols.toFinset ∨ (scope c).query.length ≠ cols.length
  · simp only [if_pos h]
    constructor
    · intro hc; cases hc
    · rintro ⟨h1, h2⟩
      rcases h with h | h
      · exact absurd (e.2 h1) h
      · exact absurd h2 h
  · simp only [if_neg h]
    push Not at h
    exact ⟨fun _ => ⟨e.1 h.1, h.2⟩, fun _ => trivial⟩

theorem validateLeaf_error {o : Option Circ} {cols : List Var} (h : ∀ c, o = some c → ¬ Covers c cols) :
    validateLeaf o cols = .error .invalidParameter := by
  cases o with
  | none => rfl
  | some c =>
    have := mt validateLeaf_some.1 (h c rfl)
    unfold validateLeaf at this ⊢
    simp only at this ⊢
    split_ifs at this ⊢ with hc
    · rfl
    · exact absurd rfl this

theorem build_eq (hx : 1 ≤ a.nx) (hz : 1 ≤ a.nz) (hf : Factories a xf zf xl zl) :
    buildEncoder a xf zf d = match buildEinet [xl, zl] a.einet d with
      | .error e => .error e
      | .ok m => .ok ⟨a.nx.toNat, a.nz.toNat, m⟩ := by
  unfold buildEncoder
  rw [if_neg (by omega), if_neg (by omega), hf.xok, hf.zok, validateLeaf_some.2 hf.xcov]
  simp only
  rw [validateLeaf_some.2 hf.zcov]
  rfl

theorem width_eq (hx : 1 ≤ a.nx) (hz : 1 ≤ a.nz) (hf : Factories a xf zf xl zl) : (width [xl, zl] : ℤ) = a.nx + a.nz := by
  unfold width
  simp only [List.map_cons, List.map_nil, List.sum_cons, List.sum_nil, hf.xcov.2, hf.zcov.2, xCols, zCols, List.length_map,
    List.length_range]
  push_cast
  omega

/-- **Constructor.** With factories that return leaves over the expected columns (in any order) and legal Einet arguments, the encoder
is built exactly if both sizes are positive and `2 ** depth` is at most the number of columns; otherwise InvalidParameterError. -/
theorem C75_constructor (hf : Factories a xf zf xl zl) (h : ESetup μ [xl, zl] a.einet C Rl d) (hv : EValid a.einet) :
    ((1 ≤ a.nx ∧ 1 ≤ a.nz ∧ (2 : ℤ) ^ a.depth.toNat ≤ a.nx + a.nz) → ∃ E, buildEncoder a xf zf d = .ok E) ∧
    (¬ (1 ≤ a.nx ∧ 1 ≤ a.nz ∧ (2 : ℤ) ^ a.depth.toNat ≤ a.nx + a.nz) → buildEncoder a xf zf d = .error .invalidParameter) := by
  obtain ⟨c1, c2⟩ := C68_constructor h hv
  constructor
  · rintro ⟨hx, hz, hw⟩
    rw [← width_eq hx hz hf] at hw
    obtain ⟨m, hm⟩ := c2 (by exact_mod_cast hw)
    rw [build_eq hx hz hf, hm]
    exact ⟨_, rfl⟩
  · intro hn
    by_cases hx : 1 ≤ a.nx
    · by_cases hz : 1 ≤ a.nz
      · have hw : ¬ (2 : ℤ) ^ a.depth.toNat ≤ a.nx + a.nz := fun hw => hn ⟨hx, hz, hw⟩
        rw [← width_eq hx hz hf] at hw
        rw [build_eq hx hz hf, c1 (by push Not at hw; exact_mod_cast hw)]
      · unfold buildEncoder
        rw [if_neg (by omega), if_pos (by omega)]
    · unfold buildEncoder
      rw [if_pos (by omega)]

/-- Illegal Einet arguments or a leaf over other columns: InvalidParameterError. -/
theorem C75_rejects (h : (∀ c, xf (xCols a.nx.toNat) a.leaves a.R = some c → ¬ Covers c (xCols a.nx.toNat)) ∨
      (∀ c, zf (zCols a.nx.toNat a.nz.toNat) a.leaves a.R = some c → ¬ Covers c (zCols a.nx.toNat a.nz.toNat)) ∨ ¬ EValid a.einet) :
    buildEncoder a xf zf d = .error .invalidParameter := by
  unfold buildEncoder
  split_ifs with h1 h2
  · rfl
  · rfl
  · by_cases hx : ∀ c, xf (xCols a.nx.toNat) a.leaves a.R = some c → ¬ Covers c (xCols a.nx.toNat)
    · rw [validateLeaf_error hx]
    · push Not at hx
      obtain ⟨xl, e1, k1⟩ := hx
      rw [e1, validateLeaf_some.2 k1]
      simp only
      by_cases hz : ∀ c, zf (zCols a.nx.toNat a.nz.toNat) a.leaves a.R = some c → ¬ Covers c (zCols a.nx.toNat a.nz.toNat)
      · rw [validateLeaf_error hz]
      · push Not at hz
        obtain ⟨zl, e2, k2⟩ := hz
        rw [e2, validateLeaf_some.2 k2]
        simp only
        rcases h with h | h | h
        · exact absurd k1 (h xl e1)
        · exact absurd k2 (h zl e2)
        · rw [C68_rejects _ _ h]

/-! ### Shapes -/

/-- Wrong shapes raise ShapeError: fewer than two dimensions, or the wrong number of entries per row. -/
theorem C75_shapes (n : ℕ) (t : Batch) : (∃ B, Shaped n B t) ∧ (∃ f, flatten n t = .ok f) ∨
    (¬ ∃ B, Shaped n B t) ∧ flatten n t = .error .shapeError := by
  unfold flatten Shaped
  rcases hd : t.dims with _ | ⟨b, _ | ⟨k, rest⟩⟩
  · right; simp
  · right; simp
  · by_cases hp : (k :: rest).prod = n
    · left
      refine ⟨⟨b, k, rest, rfl, hp⟩, ⟨b, t.at2⟩, ?_⟩
      simp only
      rw [if_neg (not_not.2 hp)]
    · right
      refine ⟨?_, ?_⟩
      · rintro ⟨B, k', rest', he, hp'⟩
        simp only [List.cons.injEq] at he
        obtain ⟨-, rfl, rfl⟩ := he
        exact hp hp'
      · simp only
        rw [if_pos hp]

theorem flatten_ok {n B : ℕ} {t : Batch} (h : Shaped n B t) : flatten n t = .ok ⟨B, t.at2⟩ := by
  obtain ⟨k, rest, hd, hp⟩ := h
  unfold flatten
  rw [hd]
  simp only
  rw [if_neg (not_not.2 hp)]

/-! ### Built encoders -/

theorem mem_cols {nx nz : ℕ} {v : ℤ} : v ∈ xCols nx ∨ v ∈ zCols nx nz ↔ 0 ≤ v ∧ v < (nx + nz : ℕ) := by
  unfold xCols zCols
  rw [List.mem_map, List.mem_map]
  constructor
  · rintro (⟨i, hi, he⟩ | ⟨j, hj, he⟩)
    · rw [List.mem_range] at hi; omega
    · rw [List.mem_range] at hj; omega
  · rintro ⟨h1, h2⟩
    by_cases hlt : v < (nx : ℤ)
    · left; exact ⟨v.toNat, by rw [List.mem_range]; omega, by omega⟩
    · right; exact ⟨(v - nx).toNat, by rw [List.mem_range]; omega, by omega⟩

/-- What is known about an encoder that has been built. -/
theorem built {E : JointEnc} (hf : Factories a xf zf xl zl) (hE : buildEncoder a xf zf d = .ok E) :
    1 ≤ a.nx ∧ 1 ≤ a.nz ∧ (E.nx : ℤ) = a.nx ∧ (E.nz : ℤ) = a.nz ∧ buildEinet [xl, zl] a.einet d = .ok E.pc ∧
      ∀ v : ℤ, InScope [xl, zl] v ↔ 0 ≤ v ∧ v < (E.nx + E.nz : ℕ) := by
  have hx : 1 ≤ a.nx := by
    by_contra hc
    unfold buildEncoder at hE
    rw [if_pos (by omega)] at hE
    cases hE
  have hz : 1 ≤ a.nz := by
    by_contra hc
    unfold buildEncoder at hE
    rw [if_neg (by omega), if_pos (by omega)] at hE
    cases hE
  rw [build_eq hx hz hf] at hE
  cases hm : buildEinet [xl, zl] a.einet d with
  | error e => rw [hm] at hE; cases hE
  | ok m =>
    rw [hm] at hE
    simp only [Except.ok.injEq] at hE
    subst hE
    refine ⟨hx, hz, by simp; omega, by simp; omega, rfl, fun v => ?_⟩
    unfold InScope
    simp only [List.mem_cons, List.not_mem_nil, or_false, exists_eq_or_imp, exists_eq_left, hf.xcov.1 v, hf.zcov.1 v]
    exact mem_cols

theorem colRow_x (nx nz : ℕ) (x z : ℕ → Option ℝ) {i : ℕ} (hi : i < nx) : colRow nx nz x z (i : ℤ) = x i := by
  unfold colRow
  rw [if_pos (by omega)]
  simp

theorem colRow_z (nx nz : ℕ) (x z : ℕ → Option ℝ) {j : ℕ} (hj : j < nz) : colRow nx nz x z ((nx + j : ℕ) : ℤ) = z j := by
  unfold colRow
  rw [if_neg (by push_cast; omega), if_pos (by push_cast; omega)]
  congr 1
  push_cast
  omega

theorem colRow_out (nx nz : ℕ) (x z : ℕ → Option ℝ) {v : ℤ} (hv : ¬ (0 ≤ v ∧ v < (nx + nz : ℕ))) : colRow nx nz x z v = none := by
  unfold colRow
  rw [if_neg (by push_cast at hv; omega), if_neg (by push_cast at hv ⊢; omega)]

/-- Every column is an observed or a latent one. -/
theorem cols_cases {nx nz : ℕ} {v : ℤ} (hv : 0 ≤ v ∧ v < (nx + nz : ℕ)) :
    (∃ i < nx, v = (i : ℤ)) ∨ ∃ j < nz, v = ((nx + j : ℕ) : ℤ) := by
  by_cases hlt : v < (nx : ℤ)
  · left; exact ⟨v.toNat, by omega, by omega⟩
  · right; exact ⟨(v - nx).toNat, by push_cast at hv; omega, by push_cast; omega⟩

/-! ### Likelihoods -/

theorem logLiks_ok {m : Model} {g : Row → LogV} {e : ℕ → Row} {n : ℕ} (h : ∀ b < n, m.logLik (e b) = .ok (some (g (e b)))) :
    logLiks m n e = .ok ((List.range n).map fun b => some (g (e b))) := by
  unfold logLiks
  have : ∀ l : List ℕ, (∀ b ∈ l, b < n) → l.mapM (fun b => m.logLik (e b)) = .ok (l.map fun b => some (g (e b))) := by
    intro l
    induction l with
    | nil => intro _; rfl
    | cons b l ih =>
      intro hl
      rw [List.mapM_cons, h b (hl b (by simp)), ih fun c hc => hl c (by simp [hc])]
      rfl
  exact this _ fun b hb => List.mem_range.1 hb

/-- **Densities.** If no leaf component is impossible anywhere (or the network has depth 0), there is one function `p` such that, for
all tensors of the right shape, `joint_log_likelihood(x, z)` returns `log p(x, z)` for every row and `log_likelihood_x(x)` returns
`log p(x, NaN)`; `exp p` has total integral one over all columns, and `exp log p(x)` is the integral over the latent columns -
also when entries of `x` are NaN, which are then integrated out too (`S`: the missing columns). -/
theorem C75_densities [∀ v, SigmaFinite (μ v)] (hf : Factories a xf zf xl zl) (h : ESetup μ [xl, zl] a.einet C Rl d)
    (hv : EValid a.einet) {E : JointEnc} (hE : buildEncoder a xf zf d = .ok E)
    (hpos : (∀ x, Possible [xl, zl] x) ∨ a.depth = 0) :
    ∃ p : (ℕ → Option ℝ) → (ℕ → Option ℝ) → LogV,
      (∀ (B : ℕ) (x z : Batch), Shaped E.nx B x → Shaped E.nz B z →
        E.jointLL x z = .ok ((List.range B).map fun b => some (p (x.at2 b) (z.at2 b)))) ∧
      (∀ (B : ℕ) (x : Batch), Shaped E.nx B x → E.marginalLL x = .ok ((List.range B).map fun b => some (p (x.at2 b) nans))) ∧
      (∀ y : Var → ℝ, (∫⋯∫⁻_(zCols E.nx E.nz).toFinset, (fun y => ENNReal.ofReal (expL (p (xs E.nx y) (zs E.nx E.nz y)))) ∂μ) y =
        ENNReal.ofReal (expL (p (xs E.nx y) nans))) ∧
      (∀ S ⊆ (xCols E.nx).toFinset, ∀ y : Var → ℝ,
        (∫⋯∫⁻_(S ∪ (zCols E.nx E.nz).toFinset), (fun y => ENNReal.ofReal (expL (p (xs E.nx y) (zs E.nx E.nz y)))) ∂μ) y =
          ENNReal.ofReal (expL (p (fun i => if (i : ℤ) ∈ S then none else xs E.nx y i) nans))) ∧
      ∀ y : Var → ℝ, (∫⋯∫⁻_((xCols E.nx).toFinset ∪ (zCols E.nx E.nz).toFinset),
        (fun y => ENNReal.ofReal (expL (p (xs E.nx y) (zs E.nx E.nz y)))) ∂μ) y = 1 := by
  obtain ⟨hx1, hz1, hnx, hnz, hm, hsc⟩ := built hf hE
  obtain ⟨n1, n2, n3⟩ := C68_normalised h hv hm
  have hll : ∀ x, E.pc.logLik x = .ok (some (E.pc.den x)) := fun x => by
    rcases hpos with hp | h0
    · exact (C68_log_likelihood_partial h hv hm (hp x)).1
    · refine C68_single_group h hv hm ?_ x
      unfold factDepth
      rw [if_pos (show a.einet.struct = .topDown from rfl)]
      show a.depth.toNat = 0
      omega
  have hcols : (xCols E.nx).toFinset ∪ (zCols E.nx E.nz).toFinset = scopeOf [xl, zl] := by
    ext v
    rw [mem_scopeOf, hsc, mem_union, List.mem_toFinset, List.mem_toFinset, mem_cols]
  have hfull : ∀ y : Var → ℝ, E.pc.den (colRow E.nx E.nz (xs E.nx y) (zs E.nx E.nz y)) = E.pc.den fun v => some (y v) := by
    intro y
    refine n3 _ _ fun v hv => ?_
    rw [hsc] at hv
    rcases cols_cases hv with ⟨i, hi, rfl⟩ | ⟨j, hj, rfl⟩
    · rw [colRow_x _ _ _ _ hi]; simp [xs, hi]
    · rw [colRow_z _ _ _ _ hj]; simp [zs, hj]
  have hzx : ∀ i < E.nx, ((i : ℕ) : ℤ) ∉ zCols E.nx E.nz := by
    intro i hi hc
    unfold zCols at hc
    simp only [List.mem_map, List.mem_range] at hc
    obtain ⟨j, -, hj⟩ := hc
    push_cast at hj
    omega
  have hzz : ∀ j < E.nz, ((E.nx + j : ℕ) : ℤ) ∈ zCols E.nx E.nz := fun j hj => by
    unfold zCols
    simp only [List.mem_map, List.mem_range]
    exact ⟨j, hj, rfl⟩
  have hS : ∀ S ⊆ (xCols E.nx).toFinset, ∀ y : Var → ℝ,
        (∫⋯∫⁻_(S ∪ (zCols E.nx E.nz).toFinset), (fun y => ENNReal.ofReal (expL (E.pc.den (colRow E.nx E.nz (xs E.nx y) (zs E.nx E.nz y))))) ∂μ) y =
          ENNReal.ofReal (expL (E.pc.den (colRow E.nx E.nz (fun i => if (i : ℤ) ∈ S then none else xs E.nx y i) nans))) := by
    intro S hS y
    simp only [hfull]
    rw [n1 _ (by rw [← hcols]; exact union_subset_union hS (Subset.refl _)) y]
    congr 2
    refine n3 _ _ fun v hv => ?_
    rw [hsc] at hv
    unfold maskRow
    rcases cols_cases hv with ⟨i, hi, rfl⟩ | ⟨j, hj, rfl⟩
    · rw [colRow_x _ _ _ _ hi]
      by_cases hiS : (i : ℤ) ∈ S
      · rw [if_pos (mem_union_left _ hiS), if_pos hiS]
      · rw [if_neg (by rw [mem_union, List.mem_toFinset]; exact fun hc => hc.elim hiS (hzx i hi)), if_neg hiS]
        simp [xs, hi]
    · rw [colRow_z _ _ _ _ hj, if_pos (mem_union_right _ (by rw [List.mem_toFinset]; exact hzz j hj))]
      rfl
  refine ⟨fun x z => E.pc.den (colRow E.nx E.nz x z), fun B x z sx sz => ?_, fun B x sx => ?_, fun y => ?_, hS, fun y => ?_⟩
  · unfold JointEnc.jointLL buildEvidence
    rw [flatten_ok sx, flatten_ok sz]
    simp only [ne_eq, not_true_eq_false, if_false]
    exact logLiks_ok (g := E.pc.den) fun b _ => hll _
  · unfold JointEnc.marginalLL buildEvidence
    rw [flatten_ok sx]
    simp only
    exact logLiks_ok (g := E.pc.den) fun b _ => hll _
  · have := hS ∅ (empty_subset _) y
    rw [empty_union] at this
    simpa using this
  · simp only [hfull]
    rw [hcols]
    exact n2 y

theorem flattenOpt_ok {n B : ℕ} {x : Batch} (hx : Shaped n B x) : flattenOpt n (some x) = .ok (some ⟨B, x.at2⟩) := by
  simp only [flattenOpt, flatten_ok hx]

/-- Different numbers of rows raise ShapeError. -/
theorem C75_batch_mismatch (E : JointEnc) {B B' : ℕ} {x z : Batch} (hx : Shaped E.nx B x) (hz : Shaped E.nz B' z) (hb : B' ≠ B)
    (fill : Bool) : E.jointLL x z = .error .shapeError ∧ E.decode z (some x) fill = .error .shapeError := by
  have he : buildEvidence E.nx E.nz (some ⟨B, x.at2⟩) (some ⟨B', z.at2⟩) none = .error .shapeError := if_pos hb
  have ho := flattenOpt_ok hx
  constructor
  · unfold JointEnc.jointLL
    simp only [flatten_ok hx, flatten_ok hz, he]
  · unfold JointEnc.decode
    simp only [ho, flatten_ok hz, he]

end Verif.Apc

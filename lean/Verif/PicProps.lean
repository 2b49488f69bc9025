import Verif.Pic
import Verif.OuterProps
import Mathlib.Algebra.BigOperators.Ring.Finset
import Mathlib.Data.List.GetD

/-!
# C63: a materialised QPC computes the tensor-product quadrature of its PIC
-/

namespace Verif.PicQ
open Verif Finset

/-! ## Specification -/

/-- Tensor-product quadrature of `h` over the latent variables `vs`: each variable in turn runs over the points. -/
noncomputable def quad (ρ : Rule) : List ℕ → ((ℕ → ℝ) → ℝ) → (ℕ → ℝ) → ℝ
  | [], h, η => h η
  | v :: vs, h, η => ∑ k ∈ range ρ.K, ρ.wt k * quad ρ vs h (Function.update η v (ρ.pt k))

/-- What a PIC unit means, with every integral replaced by the quadrature rule: a function of the observed row and of
an assignment `η` of the latent variables. -/
noncomputable def value (ρ : Rule) : Pic → Row → (ℕ → ℝ) → ℝ
  | .input _ z g _, x, η => expL (g x (z.map η))
  | .sum _ us w _, x, η => ∑ i, w i * value ρ (us i) x η
  | .prod l r, x, η => value ρ l x η * value ρ r x η
  | .integral u z y f, x, η =>
    quad ρ y (fun η' => ((f.map fun g => g (z.map η) (y.map η')).getD 0) * value ρ u x η') η

/-- The unit is built the way Algorithm 1 builds it: input units are materialised at the grid points of their latent
scope; the inputs of a sum have its latent scope; an integral integrates exactly the latent scope of its input; the two
factors of a product have the same latent scope, or the ids on the left are all smaller than those on the right;
latent scopes are strictly increasing. -/
def Coherent (ρ : Rule) : Pic → Prop
  | .input _ z g mat => z.Pairwise (· < ·) ∧ (mat ρ).1 = ρ.K ^ z.length ∧
      ∀ x, ∀ c < ρ.K ^ z.length, (mat ρ).2 x c = g x ((gridPts ρ z.length).getD c [])
  | .sum n us _ z => 0 < n ∧ z.Pairwise (· < ·) ∧ ∀ i, Coherent ρ (us i) ∧ (us i).latent = z
  | .prod l r => Coherent ρ l ∧ Coherent ρ r ∧
      (l.latent = r.latent ∨ ∀ a ∈ l.latent, ∀ b ∈ r.latent, a < b)
  | .integral u z y _ => Coherent ρ u ∧ y = u.latent ∧ z.Pairwise (· < ·)

/-! ## Grid and weights -/

theorem grid_length (ρ : Rule) (d : ℕ) : (gridPts ρ d).length = ρ.K ^ d := by
  induction d with
  | zero => rfl
  | succ d ih => rw [gridPts, List.length_flatMap]; simp [ih, pow_succ, mul_comm]

theorem grid_get (ρ : Rule) (d i j : ℕ) (hi : i < ρ.K) (hj : j < ρ.K ^ d) :
    (gridPts ρ (d + 1)).getD (i * ρ.K ^ d + j) [] = ρ.pt i :: (gridPts ρ d).getD j [] := by
  have h := Outer.flatMap_getElem (List.range ρ.K) (fun i => (gridPts ρ d).map (ρ.pt i :: ·)) (ρ.K ^ d)
    (by intro b _; simp [grid_length]) i j (by simpa using hi) hj
  rw [gridPts, List.getD_eq_getElem?_getD, h]
  rw [List.getElem_range, List.getElem?_map, List.getD_eq_getElem?_getD,
    List.getElem?_eq_getElem (by rw [grid_length]; exact hj)]
  rfl

theorem grid_len_mem (ρ : Rule) (d : ℕ) : ∀ l ∈ gridPts ρ d, l.length = d := by
  induction d with
  | zero => intro l hl; simp [gridPts] at hl; simp [hl]
  | succ d ih =>
    intro l hl
    rw [gridPts, List.mem_flatMap] at hl
    obtain ⟨i, -, hl⟩ := hl
    obtain ⟨m, hm, rfl⟩ := List.mem_map.1 hl
    simp [ih m hm]

theorem grid_getD_len (ρ : Rule) (d c : ℕ) (hc : c < ρ.K ^ d) : ((gridPts ρ d).getD c []).length = d := by
  rw [List.getD_eq_getElem _ _ (by rw [grid_length]; exact hc)]
  exact grid_len_mem ρ d _ (List.getElem_mem _)

/-- Product weight of grid point `c`, most significant digit first. -/
noncomputable def wprod (ρ : Rule) : ℕ → ℕ → ℝ
  | 0, _ => 1
  | d + 1, c => ρ.wt (c / ρ.K ^ d) * wprod ρ d (c % ρ.K ^ d)

theorem wprod_last (ρ : Rule) (d : ℕ) : ∀ c, wprod ρ (d + 1) c = wprod ρ d (c / ρ.K) * ρ.wt (c % ρ.K ^ (d + 1) % ρ.K) ∨
    ρ.K = 0 ∨ ρ.K ^ (d + 1) ≤ c := by
  induction d with
  | zero =>
    intro c
    by_cases hc : ρ.K ^ 1 ≤ c
    · exact Or.inr (Or.inr hc)
    · left
      rw [pow_one] at hc
      simp only [wprod, pow_zero, Nat.div_one, one_mul, mul_one, zero_add, pow_one]
      rw [Nat.mod_eq_of_lt (a := c) (by omega), Nat.mod_eq_of_lt (by omega)]
  | succ d ih =>
    intro c
    by_cases hK : ρ.K = 0
    · exact Or.inr (Or.inl hK)
    by_cases hc : ρ.K ^ (d + 2) ≤ c
    · exact Or.inr (Or.inr hc)
    left
    have hKp : 0 < ρ.K := Nat.pos_of_ne_zero hK
    have hlt : c % ρ.K ^ (d + 1) < ρ.K ^ (d + 1) := Nat.mod_lt _ (Nat.pow_pos hKp)
    rw [show wprod ρ (d + 1 + 1) c = ρ.wt (c / ρ.K ^ (d + 1)) * wprod ρ (d + 1) (c % ρ.K ^ (d + 1)) from rfl]
    rcases ih (c % ρ.K ^ (d + 1)) with h | h | h
    · rw [h, show wprod ρ (d + 1) (c / ρ.K) = ρ.wt (c / ρ.K / ρ.K ^ d) * wprod ρ d (c / ρ.K % ρ.K ^ d) from rfl,
        ← mul_assoc]
      have e1 : c / ρ.K / ρ.K ^ d = c / ρ.K ^ (d + 1) := by rw [Nat.div_div_eq_div_mul, ← pow_succ']
      have e2 : c % ρ.K ^ (d + 1) / ρ.K = c / ρ.K % ρ.K ^ d := by rw [pow_succ', Nat.mod_mul_right_div_self]
      have e3 : c % ρ.K ^ (d + 1) % ρ.K ^ (d + 1) % ρ.K = c % ρ.K ^ (d + 1 + 1) % ρ.K := by
        have a1 : ∀ e, c % ρ.K ^ (e + 1) % ρ.K = c % ρ.K := fun e => by rw [pow_succ', Nat.mod_mul_right_mod]
        rw [Nat.mod_mod, a1, a1]
      rw [e1, e2, e3]
    · omega
    · omega

theorem kron_length (ρ : Rule) : ∀ d, (kron ρ d).length = ρ.K ^ d
  | 0 => rfl
  | 1 => by simp [kron]
  | d + 2 => by rw [kron, List.length_flatMap]; simp [kron_length ρ (d + 1), pow_succ]

theorem kron_get (ρ : Rule) : ∀ d c, c < ρ.K ^ d → (kron ρ d).getD c 0 = wprod ρ d c
  | 0, c, hc => by
    have : c = 0 := by simpa using hc
    subst this; rfl
  | 1, c, hc => by
    rw [pow_one] at hc
    rw [kron, List.getD_eq_getElem _ _ (by simpa using hc)]
    simp [wprod]
  | d + 2, c, hc => by
    have hK : 0 < ρ.K := by
      rcases Nat.eq_zero_or_pos ρ.K with h | h
      · rw [h, zero_pow (by omega)] at hc; omega
      · exact h
    have hdiv : c / ρ.K < ρ.K ^ (d + 1) := Nat.div_lt_of_lt_mul (by rw [← pow_succ']; exact hc)
    have hmod : c % ρ.K < ρ.K := Nat.mod_lt _ hK
    have h := Outer.flatMap_getElem (kron ρ (d + 1)) (fun a => (List.range ρ.K).map fun j => a * ρ.wt j) ρ.K
      (by intro b _; simp) (c / ρ.K) (c % ρ.K) (by rw [kron_length]; exact hdiv) hmod
    rw [Nat.div_add_mod'] at h
    rw [kron, List.getD_eq_getElem?_getD, h, List.getElem?_map, List.getElem?_range hmod]
    have ih := kron_get ρ (d + 1) (c / ρ.K) hdiv
    rw [List.getD_eq_getElem _ _ (by rw [kron_length]; exact hdiv)] at ih
    simp only [Option.map_some, Option.getD_some]
    rw [ih]
    rcases wprod_last ρ (d + 1) c with h | h | h
    · rw [h, Nat.mod_eq_of_lt (a := c) hc]
    · omega
    · exact absurd h (not_le.2 hc)

/-- Latent assignment `η` with the variables `z` set to `vals`. -/
def assign (η : ℕ → ℝ) : List ℕ → List ℝ → ℕ → ℝ
  | a :: as, v :: vs => assign (Function.update η a v) as vs
  | _, _ => η

theorem sum_range_mul' (a b : ℕ) (h : ℕ → ℝ) :
    ∑ c ∈ range (a * b), h c = ∑ i ∈ range a, ∑ j ∈ range b, h (i * b + j) := by
  induction a with
  | zero => simp
  | succ a ih => rw [Nat.succ_mul, sum_range_add, ih, sum_range_succ]

theorem quad_eq_sum (ρ : Rule) (h : (ℕ → ℝ) → ℝ) (y : List ℕ) (η : ℕ → ℝ) :
    quad ρ y h η = ∑ c ∈ range (ρ.K ^ y.length),
      wprod ρ y.length c * h (assign η y ((gridPts ρ y.length).getD c [])) := by
  induction y generalizing η with
  | nil => simp [quad, wprod, assign]
  | cons v vs ih =>
    simp only [quad, List.length_cons]
    rw [pow_succ', sum_range_mul']
    refine sum_congr rfl fun i hi => ?_
    rw [ih, mul_sum]
    refine sum_congr rfl fun j hj => ?_
    have hj' := mem_range.1 hj
    rw [grid_get ρ _ i j (mem_range.1 hi) hj', wprod]
    have h1 : (i * ρ.K ^ vs.length + j) / ρ.K ^ vs.length = i := by
      rw [mul_comm, Nat.mul_add_div (by omega), Nat.div_eq_of_lt hj', add_zero]
    have h2 : (i * ρ.K ^ vs.length + j) % ρ.K ^ vs.length = j := by
      rw [Nat.mul_add_mod', Nat.mod_eq_of_lt hj']
    rw [h1, h2, assign, mul_assoc]

theorem assign_of_notMem (z : List ℕ) (vals : List ℝ) (η : ℕ → ℝ) {a : ℕ} (ha : a ∉ z) :
    assign η z vals a = η a := by
  induction z generalizing vals η with
  | nil => cases vals <;> rfl
  | cons b z ih =>
    cases vals with
    | nil => rfl
    | cons v vals =>
      rw [assign, ih _ _ (fun h => ha (List.mem_cons_of_mem _ h)), Function.update_of_ne]
      rintro rfl; exact ha (List.mem_cons_self)

theorem map_assign (z : List ℕ) (vals : List ℝ) (η : ℕ → ℝ) (hn : z.Nodup) (hl : vals.length = z.length) :
    z.map (assign η z vals) = vals := by
  induction z generalizing vals η with
  | nil => simp at hl; simp [hl]
  | cons b z ih =>
    cases vals with
    | nil => simp at hl
    | cons v vals =>
      rw [List.nodup_cons] at hn
      rw [List.map_cons, assign, ih _ _ hn.2 (by simpa using hl), assign_of_notMem _ _ _ hn.1, Function.update_self]

/-- An assignment only depends on the values given, on the assigned variables. -/
theorem assign_congr (z : List ℕ) (vals : List ℝ) (η η' : ℕ → ℝ) (hl : vals.length = z.length) :
    ∀ a ∈ z, assign η z vals a = assign η' z vals a := by
  induction z generalizing vals η η' with
  | nil => simp
  | cons b z ih =>
    cases vals with
    | nil => simp at hl
    | cons v vals =>
      intro a ha
      rw [assign, assign]
      by_cases h : a ∈ z
      · exact ih _ _ _ (by simpa using hl) a h
      · rw [assign_of_notMem _ _ _ h, assign_of_notMem _ _ _ h]
        rcases List.mem_cons.1 ha with rfl | h'
        · simp
        · exact absurd h' h

theorem assign_append (z1 z2 : List ℕ) (v1 v2 : List ℝ) (η : ℕ → ℝ) (hl : v1.length = z1.length) :
    assign η (z1 ++ z2) (v1 ++ v2) = assign (assign η z1 v1) z2 v2 := by
  induction z1 generalizing v1 η with
  | nil => simp at hl; subst hl; simp [assign]
  | cons b z ih =>
    cases v1 with
    | nil => simp at hl
    | cons v v1 =>
      rw [List.cons_append, List.cons_append, assign, ih _ _ (by simpa using hl), assign]

theorem grid_append (ρ : Rule) (d e : ℕ) : ∀ i j, i < ρ.K ^ d → j < ρ.K ^ e →
    (gridPts ρ (d + e)).getD (i * ρ.K ^ e + j) [] = (gridPts ρ d).getD i [] ++ (gridPts ρ e).getD j [] := by
  induction d with
  | zero =>
    intro i j hi hj
    have : i = 0 := by simpa using hi
    subst this
    simp [gridPts]
  | succ d ih =>
    intro i j hi hj
    have hd : 0 < ρ.K ^ d := by
      rcases Nat.eq_zero_or_pos (ρ.K ^ d) with h | h
      · rw [pow_succ, h] at hi; omega
      · exact h
    have hq : i / ρ.K ^ d < ρ.K := Nat.div_lt_of_lt_mul (by rw [← pow_succ]; exact hi)
    have hr : i % ρ.K ^ d < ρ.K ^ d := Nat.mod_lt _ hd
    have hb : i % ρ.K ^ d * ρ.K ^ e + j < ρ.K ^ (d + e) := by
      rw [pow_add]
      calc i % ρ.K ^ d * ρ.K ^ e + j < i % ρ.K ^ d * ρ.K ^ e + ρ.K ^ e := by omega
        _ = (i % ρ.K ^ d + 1) * ρ.K ^ e := by ring
        _ ≤ _ := Nat.mul_le_mul_right _ hr
    have e1 : i * ρ.K ^ e + j = i / ρ.K ^ d * ρ.K ^ (d + e) + (i % ρ.K ^ d * ρ.K ^ e + j) := by
      conv_lhs => rw [← Nat.div_add_mod' i (ρ.K ^ d)]
      rw [pow_add]; ring
    rw [show d + 1 + e = d + e + 1 by omega, e1, grid_get ρ (d + e) _ _ hq hb, ih _ _ hr hj]
    have e2 : (gridPts ρ (d + 1)).getD i [] = ρ.pt (i / ρ.K ^ d) :: (gridPts ρ d).getD (i % ρ.K ^ d) [] := by
      conv_lhs => rw [← Nat.div_add_mod' i (ρ.K ^ d)]
      exact grid_get ρ d _ _ hq hr
    rw [e2]; rfl

/-! ## Latent scopes -/

theorem joinLat_self {z : List ℕ} (h : z.Pairwise (· < ·)) : joinLat z z = z := by
  unfold joinLat
  have hn : z.Nodup := h.imp (fun h => Nat.ne_of_lt h)
  have : (z ++ z).dedup = z := by
    rw [List.dedup_append, List.Nodup.dedup hn, List.Subset.union_eq_right (fun _ h => h)]
  rw [this]
  exact List.Pairwise.insertionSort_eq (h.imp Nat.le_of_lt)

theorem joinLat_lt {a b : List ℕ} (ha : a.Pairwise (· < ·)) (hb : b.Pairwise (· < ·))
    (hab : ∀ x ∈ a, ∀ y ∈ b, x < y) : joinLat a b = a ++ b := by
  unfold joinLat
  have h : (a ++ b).Pairwise (· < ·) := List.pairwise_append.2 ⟨ha, hb, hab⟩
  rw [List.Nodup.dedup (h.imp (fun h => Nat.ne_of_lt h))]
  exact List.Pairwise.insertionSort_eq (h.imp Nat.le_of_lt)

theorem coherent_sorted (ρ : Rule) : ∀ u, Coherent ρ u → u.latent.Pairwise (· < ·)
  | .input _ _ _ _, h => h.1
  | .sum _ _ _ _, h => h.2.1
  | .prod l r, h => by
    have hl := coherent_sorted ρ l h.1
    have hr := coherent_sorted ρ r h.2.1
    rcases h.2.2 with e | e
    · rw [Pic.latent, ← e, joinLat_self hl]; exact hl
    · rw [Pic.latent, joinLat_lt hl hr e]; exact List.pairwise_append.2 ⟨hl, hr, e⟩
  | .integral _ _ _ _, h => h.2.2

/-- The value of a unit only depends on the latent variables in its latent scope. -/
theorem value_congr (ρ : Rule) : ∀ u, Coherent ρ u → ∀ x η η', (∀ a ∈ u.latent, η a = η' a) →
    value ρ u x η = value ρ u x η'
  | .input _ z g _, _, x, η, η', h => by
    simp only [value]
    have h' : ∀ a ∈ z, η a = η' a := h
    rw [List.map_congr_left h']
  | .sum n us w z, hc, x, η, η', h => by
    simp only [value]
    refine sum_congr rfl fun i _ => ?_
    rw [value_congr ρ (us i) (hc.2.2 i).1 x η η' (by rw [(hc.2.2 i).2]; exact h)]
  | .prod l r, hc, x, η, η', h => by
    simp only [value]
    have hm : ∀ a, a ∈ l.latent ∨ a ∈ r.latent → η a = η' a := by
      intro a ha
      refine h a ?_
      show a ∈ (l.latent ++ r.latent).dedup.insertionSort (· ≤ ·)
      rw [List.mem_insertionSort, List.mem_dedup, List.mem_append]
      exact ha
    rw [value_congr ρ l hc.1 x η η' fun a ha => hm a (Or.inl ha),
      value_congr ρ r hc.2.1 x η η' fun a ha => hm a (Or.inr ha)]
  | .integral u z y f, hc, x, η, η', h => by
    simp only [value]
    have hy : y = u.latent := hc.2.1
    rw [quad_eq_sum, quad_eq_sum]
    refine sum_congr rfl fun c hcm => ?_
    have hlen := grid_getD_len ρ y.length c (mem_range.1 hcm)
    have hag := assign_congr y ((gridPts ρ y.length).getD c []) η η' hlen
    have h' : ∀ a ∈ z, η a = η' a := h
    rw [List.map_congr_left h', List.map_congr_left hag,
      value_congr ρ u hc.1 x _ _ (by rw [← hy]; exact hag)]

/-! ## Materialisation -/

theorem catCh_block (m : ℕ) : ∀ (l : List (ℕ × (ℕ → LogV))), (∀ p ∈ l, p.1 = m) → ∀ i j, (hi : i < l.length) → j < m →
    Circ.catCh l (i * m + j) = (l[i]).2 j
  | [], _, i, _, hi, _ => absurd hi (by simp)
  | (n, g) :: l, h, i, j, hi, hj => by
    have hn : n = m := h (n, g) (by simp)
    subst hn
    cases i with
    | zero => simp [Circ.catCh, hj]
    | succ i =>
      rw [Circ.catCh, if_neg (by rw [Nat.succ_mul]; omega)]
      have e : (i + 1) * n + j - n = i * n + j := by rw [Nat.succ_mul]; omega
      rw [e, catCh_block n l (fun p hp => h p (List.mem_cons_of_mem _ hp)) i j (by simpa using hi) hj]
      rfl

theorem mapM_id_ok {α : Type} : ∀ (l : List (Except Exc α)) (r : List α), l.mapM id = .ok r →
    List.Forall₂ (fun a b => a = .ok b) l r
  | [], r, h => by
    rw [List.mapM_nil] at h
    cases h
    exact .nil
  | a :: l, r, h => by
    rw [List.mapM_cons] at h
    cases ha : a with
    | error e => rw [ha] at h; cases h
    | ok b =>
      rw [ha] at h
      simp only [id, bind, Except.bind] at h
      cases hl : l.mapM id with
      | error e => rw [hl] at h; cases h
      | ok bs =>
        rw [hl] at h
        cases h
        exact .cons rfl (mapM_id_ok l bs hl)

theorem mkWSum_ok {q : Q} {co : ℕ} {w : ℕ → ℕ → ℝ} {q' : Q} (h : mkWSum q co w = .ok q') :
    q' = .wsum q co w ∧ ∀ ci < q.ch, ∀ o < co, 0 ≤ w ci o := by
  unfold mkWSum at h
  split at h
  · cases h
  · rename_i hn
    cases h
    exact ⟨rfl, not_not.1 hn⟩

theorem expL_wsum {q : Q} {co : ℕ} {w : ℕ → ℕ → ℝ} (hw : ∀ ci < q.ch, ∀ o < co, 0 ≤ w ci o) (x : Row) {o : ℕ}
    (ho : o < co) : expL ((Q.wsum q co w).ll x o) = ∑ ci ∈ range q.ch, w ci o * expL (q.ll x ci) := by
  rw [Q.ll, expL_lse]
  refine sum_congr rfl fun ci hci => ?_
  rw [expL_add, expL_logL (hw ci (mem_range.1 hci) o ho), mul_comm]

/-- What a materialised unit must satisfy. -/
def Correct (ρ : Rule) (u : Pic) (q : Q) : Prop :=
  q.ch = ρ.K ^ u.latent.length ∧ q.scope = u.scope ∧ ∀ x η c, c < ρ.K ^ u.latent.length →
    expL (q.ll x c) = value ρ u x (assign η u.latent ((gridPts ρ u.latent.length).getD c []))

theorem visit_correct (ρ : Rule) : ∀ u, Coherent ρ u → ∀ q, visit ρ u = .ok q → Correct ρ u q
  | .input xs z g mat, hc, q, h => by
    simp only [visit] at h
    cases h
    refine ⟨hc.2.1, rfl, fun x η c hcl => ?_⟩
    show expL ((mat ρ).2 x c) = expL (g x (z.map _))
    rw [hc.2.2 x c hcl, Pic.latent, map_assign z _ η (hc.1.imp fun h => Nat.ne_of_lt h)
      (grid_getD_len ρ z.length c hcl)]
  | .sum n us w z, hc, q, h => by
    obtain ⟨hn, hz, hus⟩ := hc
    simp only [visit, bind, Except.bind] at h
    cases hl : (List.ofFn fun i => visit ρ (us i)).mapM id with
    | error e => rw [hl] at h; cases h
    | ok l =>
      rw [hl] at h
      have hF := mapM_id_ok _ _ hl
      have hlen : l.length = n := by rw [← hF.length_eq]; simp
      have hget : ∀ i : Fin n, visit ρ (us i) = .ok (l.get (i.cast hlen.symm)) := by
        intro i
        have := List.Forall₂.get hF (i := i) (by simp) (by rw [hlen]; exact i.2)
        simpa using this
      have hcor : ∀ i : Fin n, Correct ρ (us i) (l.get (i.cast hlen.symm)) :=
        fun i => visit_correct ρ (us i) (hus i).1 _ (hget i)
      have hch : ∀ q ∈ l, q.ch = ρ.K ^ z.length := by
        intro q hq
        obtain ⟨j, rfl⟩ := List.get_of_mem hq
        have := (hcor ⟨j, hlen ▸ j.2⟩).1
        rw [(hus _).2] at this
        exact this
      have hhead : (l.head?.map Q.ch).getD 0 = ρ.K ^ z.length := by
        cases l with
        | nil => simp at hlen; omega
        | cons a l => exact hch a (by simp)
      dsimp only at h
      rw [hhead] at h
      split at h
      · cases h
      · cases hm : mkCat l with
        | error e => rw [hm] at h; cases h
        | ok c =>
          rw [hm] at h
          dsimp only at h
          obtain ⟨rfl, hw⟩ := mkWSum_ok h
          unfold mkCat at hm
          split at hm
          · cases hm
          · split at hm
            · cases hm
            · cases hm
              have hcch : (Q.cat l.length l.get).ch = n * ρ.K ^ z.length := by
                show (List.ofFn fun i : Fin l.length => (l.get i).ch).sum = _
                have : (List.ofFn fun i : Fin l.length => (l.get i).ch) = List.replicate l.length (ρ.K ^ z.length) := by
                  rw [List.eq_replicate_iff]
                  refine ⟨by simp, fun b hb => ?_⟩
                  obtain ⟨i, rfl⟩ := (List.mem_ofFn' _ _).1 hb
                  exact hch _ (List.get_mem _ _)
                rw [this, List.sum_replicate, hlen]; rfl
              refine ⟨rfl, ?_, ?_⟩
              · show (Q.cat l.length l.get).scope = (Pic.sum n us w z).scope
                have hn' : 0 < l.length := by omega
                rw [Q.scope, dif_pos hn', Pic.scope, dif_pos hn]
                exact (hcor ⟨0, hn⟩).2.1
              · intro x η c hcl
                rw [expL_wsum hw x hcl, hcch, sum_range_mul', ← Fin.sum_univ_eq_sum_range (fun i =>
                  ∑ j ∈ range (ρ.K ^ z.length), blockW (ρ.K ^ z.length) (fun i => if h : i < n then w ⟨i, h⟩ else 0)
                    (i * ρ.K ^ z.length + j) c * expL ((Q.cat l.length l.get).ll x (i * ρ.K ^ z.length + j))) n]
                simp only [value]
                refine sum_congr rfl fun i _ => ?_
                have hcl' : c < ρ.K ^ z.length := hcl
                rw [sum_eq_single c]
                · have hb : blockW (ρ.K ^ z.length) (fun i => if h : i < n then w ⟨i, h⟩ else 0)
                      (i * ρ.K ^ z.length + c) c = w i := by
                    unfold blockW
                    rw [Nat.mul_add_mod', Nat.mod_eq_of_lt hcl', if_pos rfl, mul_comm, Nat.mul_add_div (by omega),
                      Nat.div_eq_of_lt hcl', add_zero]
                    simp
                  rw [hb]
                  congr 1
                  have hv := (hcor i).2.2 x η c (by rw [(hus i).2]; exact hcl')
                  rw [(hus i).2] at hv
                  rw [Pic.latent, ← hv, Q.ll]
                  rw [catCh_block (ρ.K ^ z.length) _ _ i c (by simp [hlen]) hcl']
                  · simp
                  · intro p hp
                    obtain ⟨i, rfl⟩ := (List.mem_ofFn' _ _).1 hp
                    exact hch _ (List.get_mem _ _)
                · intro j hj hjc
                  have : blockW (ρ.K ^ z.length) (fun i => if h : i < n then w ⟨i, h⟩ else 0)
                      (i * ρ.K ^ z.length + j) c = 0 := by
                    unfold blockW
                    rw [Nat.mul_add_mod', Nat.mod_eq_of_lt (mem_range.1 hj), if_neg hjc]
                  rw [this, zero_mul]
                · intro h'; exact absurd (mem_range.2 hcl') h'
  | .prod l r, hc, q, h => by
    obtain ⟨hcl, hcr, hord⟩ := hc
    have hsl := coherent_sorted ρ l hcl
    have hsr := coherent_sorted ρ r hcr
    simp only [visit, bind, Except.bind, pure, Except.pure, throw, throwThe, MonadExceptOf.throw] at h
    cases hql : visit ρ l with
    | error e => rw [hql] at h; cases h
    | ok ql =>
      cases hqr : visit ρ r with
      | error e => rw [hql, hqr] at h; cases h
      | ok qr =>
        rw [hql, hqr] at h
        dsimp only at h
        have il := visit_correct ρ l hcl ql hql
        have ir := visit_correct ρ r hcr qr hqr
        split at h
        · cases h
        · by_cases he : l.latent = r.latent
          · have hle : latEq l.latent r.latent = true := by simp [latEq, he]
            rw [if_pos hle] at h
            split at h
            · cases h
            · cases h
              have hlat : (Pic.prod l r).latent = l.latent := by rw [Pic.latent, ← he, joinLat_self hsl]
              have hch : ql.ch = qr.ch := by rw [il.1, ir.1, he]
              refine ⟨?_, ?_, ?_⟩
              · rw [hlat, Q.ch, ← hch, max_self, il.1]
              · rw [Q.scope, Pic.scope, il.2.1, ir.2.1]
              · intro x η c hcc
                rw [hlat] at hcc ⊢
                have hidx : (if ql.ch = 1 then 0 else c) = c := by
                  split
                  · have := il.1; omega
                  · rfl
                rw [Q.ll, ← hch, hidx, expL_add, il.2.2 x η c hcc, value,
                  ir.2.2 x η c (by rw [← he]; exact hcc), ← he]
          · have hlt := hord.resolve_left he
            have hle : latEq l.latent r.latent = false := by
              rw [Bool.eq_false_iff]
              intro hle
              unfold latEq at hle
              rw [Bool.and_eq_true, List.all_eq_true, List.all_eq_true] at hle
              cases ha : l.latent with
              | nil =>
                cases hb : r.latent with
                | nil => exact he (by rw [ha, hb])
                | cons b bs =>
                  have := hle.2 b (by rw [hb]; simp)
                  rw [ha] at this; simp at this
              | cons a as =>
                have := hle.1 a (by rw [ha]; simp)
                have hm : a ∈ r.latent := by simpa using this
                exact absurd (hlt a (by rw [ha]; simp) a hm) (lt_irrefl _)
            rw [hle] at h
            simp only [Bool.false_eq_true, if_false] at h
            cases h
            have hlat : (Pic.prod l r).latent = l.latent ++ r.latent := by rw [Pic.latent, joinLat_lt hsl hsr hlt]
            refine ⟨?_, ?_, ?_⟩
            · rw [hlat, Q.ch, il.1, ir.1, List.length_append, pow_add]
            · rw [Q.scope, Pic.scope, il.2.1, ir.2.1]
            · intro x η c hcc
              rw [hlat] at hcc ⊢
              rw [List.length_append] at hcc ⊢
              set m := ρ.K ^ r.latent.length with hm
              have hmp : 0 < m := by
                rcases Nat.eq_zero_or_pos m with h0 | h0
                · rw [pow_add, ← hm, h0] at hcc; omega
                · exact h0
              have hq : c / m < ρ.K ^ l.latent.length :=
                Nat.div_lt_of_lt_mul (by rw [mul_comm, hm, ← pow_add]; exact hcc)
              have hr : c % m < m := Nat.mod_lt _ hmp
              have hg : (gridPts ρ (l.latent.length + r.latent.length)).getD c [] =
                  (gridPts ρ l.latent.length).getD (c / m) [] ++ (gridPts ρ r.latent.length).getD (c % m) [] := by
                conv_lhs => rw [← Nat.div_add_mod' c m]
                exact grid_append ρ _ _ _ _ hq hr
              rw [Q.ll, ir.1, expL_add, hg, assign_append _ _ _ _ _ (grid_getD_len ρ _ _ hq), value,
                il.2.2 x η _ hq, ir.2.2 x (assign η l.latent ((gridPts ρ l.latent.length).getD (c / m) [])) _ hr]
              congr 1
              refine value_congr ρ l hcl x _ _ fun a ha => ?_
              exact (assign_of_notMem _ _ _ fun hb => lt_irrefl _ (hlt a ha a hb)).symm
  | .integral u z y f, hc, q, h => by
    obtain ⟨hcu, hy, hz⟩ := hc
    simp only [visit, bind, Except.bind, throw, throwThe, MonadExceptOf.throw] at h
    cases hqu : visit ρ u with
    | error e => rw [hqu] at h; cases h
    | ok qu =>
      rw [hqu] at h
      dsimp only at h
      have iu := visit_correct ρ u hcu qu hqu
      split at h
      · cases h
      · rename_i hch
        have hch' : qu.ch = ρ.K ^ y.length := not_not.1 hch
        cases f with
        | none => cases h
        | some f =>
          dsimp only at h
          obtain ⟨rfl, hw⟩ := mkWSum_ok h
          refine ⟨rfl, iu.2.1, ?_⟩
          intro x η c hcl
          have hcl' : c < ρ.K ^ z.length := hcl
          rw [expL_wsum hw x hcl', hch']
          simp only [value, Pic.latent, Option.map_some, Option.getD_some]
          rw [quad_eq_sum, map_assign z _ η (hz.imp fun h => Nat.ne_of_lt h) (grid_getD_len ρ _ _ hcl')]
          refine sum_congr rfl fun ci hci => ?_
          have hci' := mem_range.1 hci
          have hyn : y.Nodup := by
            rw [hy]; exact (coherent_sorted ρ u hcu).imp fun h => Nat.ne_of_lt h
          rw [kron_get ρ _ _ hci', map_assign y _ _ hyn (grid_getD_len ρ _ _ hci'),
            iu.2.2 x (assign η z ((gridPts ρ z.length).getD c [])) ci (by rw [← hy]; exact hci'), ← hy]
          ring

end Verif.PicQ

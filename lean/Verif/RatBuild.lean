import Verif.RatModel
import Verif.BuildKit

/-!
Helper lemmas for C67: what `RatSPN.__init__` builds, and special cases of the sampling law.
-/

open MeasureTheory

namespace Verif.Rat

open Finset Verif.Circ
open Verif.Prog hiding bind

variable {μ : Var → Measure ℝ}

/-! ### Special cases of the law -/

namespace Model

theorem den_none {m : Model} (h : m.Ok μ) {e : Row} (he : ∀ v, e v = none) {r ch : ℕ} (hr : r < m.net.R) (hch : ch < m.net.C) :
    expL (m.net.den r 0 e ch) = 1 :=
  (Net.fam h.good hr).miss 0 (by rw [h.one]; exact Nat.one_pos) ch hch e fun v _ => he v

/-- With one class the law is the conditional density. -/
theorem law_single {m : Model} (h : m.Ok μ) (hc : m.cls = none) {ev : Option Row} {e : Row} (hev : Conv.Net.Ev ev e)
    (ha : m.net.Alive e) (z : Row) : (∑ ch ∈ range m.net.C,
      ENNReal.ofReal (m.clsProb ch) * ∑ r ∈ range m.net.R, ENNReal.ofReal (m.repProb ev r) * m.ratio e ch r z) =
      ENNReal.ofReal (expL (m.den z) / expL (m.den e)) := by
  have hC := h.cls0 hc
  have h0 : 0 < m.net.F := by rw [h.one]; exact Nat.one_pos
  have hc0 : (0 : ℕ) < m.net.C := by rw [hC]; exact Nat.one_pos
  rw [hC, sum_range_one]
  have e1 : m.clsProb 0 = 1 := by unfold clsProb; rw [hc]; simp
  have e2 : ∀ x, m.den x = m.classDen 0 x := fun x => by unfold den; rw [hc]
  rw [e1, ENNReal.ofReal_one, one_mul, e2, e2]
  cases hm : m.mix with
  | none =>
    rw [h.mix0 hm, sum_range_one]
    unfold repProb ratio classDen
    rw [hm]
    simp
  | some θ =>
    have hcd : ∀ x, expL (m.classDen 0 x) = ∑ r ∈ range m.net.R, softmax m.net.R (θ 0) r * expL (m.net.den r 0 x 0) := by
      intro x
      unfold classDen
      rw [hm]
      simp only
      rw [expL_lse]
      exact sum_congr rfl fun r _ => by rw [expL_add, expL_logSoftmax_eq_softmax, mul_comm]
    have hne : expL (m.classDen 0 e) ≠ 0 := by
      rw [Ne, expL_eq_zero_iff]; exact class_alive h ha hc0
    have hrep : ∀ r < m.net.R, m.repProb ev r = softmax m.net.R (θ 0) r * expL (m.net.den r 0 e 0) / expL (m.classDen 0 e) := by
      obtain ⟨a, -⟩ := Conv.Net.mix_logits (n := m.net.R) (θ := θ 0) (u := fun r => m.net.den r 0 e 0)
        (l := m.repWeight θ ev) hev (hcd e) hne
        (fun hn r hr => den_none h hn hr hc0)
        (by rintro rfl; funext r; unfold repWeight; simp only; rw [hC, sum_range_one])
        (by rintro rfl; left; funext r; unfold repWeight; simp only; rw [hC, sum_range_one])
      intro r hr
      rw [← a r hr]
      unfold repProb
      rw [hm]
    unfold ratio
    rw [hcd z, sum_div, ENNReal.ofReal_sum_of_nonneg fun r _ => div_nonneg (mul_nonneg (softmax_nonneg _ _ _) (expL_nonneg _))
      (expL_nonneg _)]
    refine sum_congr rfl fun r hr => ?_
    rw [mem_range] at hr
    have hd : expL (m.net.den r 0 e 0) ≠ 0 := by
      rw [Ne, expL_eq_zero_iff]; exact Net.den_alive h.good ha hr 0 h0 0 hc0
    rw [hrep r hr, ← ENNReal.ofReal_mul (div_nonneg (mul_nonneg (softmax_nonneg _ _ _) (expL_nonneg _)) (expL_nonneg _))]
    congr 1
    field_simp

/-- With one repetition the unconditional law is the density, for any number of classes. -/
theorem law_one_rep {m : Model} (h : m.Ok μ) (hR : m.net.R = 1) {e : Row} (he : ∀ v, e v = none) (z : Row) :
    (∑ ch ∈ range m.net.C,
      ENNReal.ofReal (m.clsProb ch) * ∑ r ∈ range m.net.R, ENNReal.ofReal (m.repProb none r) * m.ratio e ch r z) =
      ENNReal.ofReal (expL (m.den z)) := by
  have hC := Net.posC h.good
  have hrep : m.repProb none 0 = 1 := by
    unfold repProb
    cases hm : m.mix with
    | none => simp
    | some θ =>
      simp only
      have := sum_softmax (n := m.net.R) (f := m.repWeight θ none)
        ⟨0, by omega, sum_ne_bot fun ch hch => h.mixF θ hm ch (mem_range.1 hch) 0 (by omega)⟩
      rw [hR, sum_range_one] at this
      rw [hR]; exact this
  have hcd : ∀ ch < m.net.C, ∀ x, expL (m.classDen ch x) = expL (m.net.den 0 0 x ch) := by
    intro ch hch x
    unfold classDen
    cases hm : m.mix with
    | none => rfl
    | some θ =>
      simp only
      rw [expL_lse, hR, sum_range_one, expL_add, expL_logSoftmax_eq_softmax]
      have := sum_softmax (n := 1) (f := θ ch) ⟨0, by omega, h.mixF θ hm ch hch 0 (by omega)⟩
      rw [sum_range_one] at this
      rw [this, mul_one]
  have hin : ∀ ch < m.net.C, (∑ r ∈ range m.net.R, ENNReal.ofReal (m.repProb none r) * m.ratio e ch r z) =
      ENNReal.ofReal (expL (m.classDen ch z)) := by
    intro ch hch
    rw [hR, sum_range_one, hrep, ENNReal.ofReal_one, one_mul, hcd ch hch]
    unfold ratio
    rw [den_none h he (by omega) hch, div_one]
  rw [sum_congr rfl fun ch hch => by rw [hin ch (mem_range.1 hch)]]
  cases hw : m.cls with
  | none =>
    rw [h.cls0 hw, sum_range_one]
    unfold clsProb den
    rw [hw]
    simp
  | some w =>
    unfold clsProb den
    rw [hw]
    simp only
    rw [expL_lse, ENNReal.ofReal_sum_of_nonneg fun _ _ => expL_nonneg _]
    refine sum_congr rfl fun ch _ => ?_
    rw [expL_add, expL_logSoftmax_eq_softmax, ← ENNReal.ofReal_mul (softmax_nonneg _ _ _), mul_comm]

end Model

/-! ### The constructor -/

/-- The only split sizes that the shape check of ElementwiseProduct rejects. -/
theorem elemShapes_two (a C : ℕ) : elemShapesOk (outShapes 2 a C) = true ↔ ¬ (C = 3 ∧ a ≠ 1 ∧ a ≠ 3) := by
  unfold outShapes
  split_ifs with h
  · have : elemShapesOk (List.replicate 2 (a, C / 2)) = true := by
      simp [elemShapesOk, List.replicate]
    rw [this]
    simp only [true_iff]
    rintro ⟨rfl, _⟩
    omega
  · have h1 : C % 2 = 1 := by omega
    by_cases h3 : C = 3
    · subst h3
      by_cases ha1 : a = 1
      · subst ha1; decide
      by_cases ha3 : a = 3
      · subst ha3; decide
      simp [elemShapesOk, ha1, ha3, Ne.symm ha3]
    · have hs : ((List.replicate (2 - 1) (a, C / 2) ++ [(C, C % 2)]).map Prod.snd).filter (· ≠ 1) = [C / 2] := by
        have : C / 2 ≠ 1 := by omega
        simp [h1, this]
      unfold elemShapesOk
      rw [hs]
      simp [h3]

theorem outerShapes_two (a C : ℕ) : outerShapesOk (outShapes 2 a (C ^ 2)) = true := by
  unfold outShapes
  split_ifs with h
  · simp [outerShapesOk, List.replicate]
  · have h1 : C ^ 2 % 2 = 1 := by omega
    have h2 : C ^ 2 / 2 ≠ 1 := by
      intro h2
      have h3 : C ^ 2 = 3 := by omega
      rcases (by omega : C = 0 ∨ C = 1 ∨ 2 ≤ C) with rfl | rfl | hc
      · omega
      · omega
      · have := Nat.pow_le_pow_left hc 2
        omega
    have : List.count 1 [C ^ 2 / 2, 1] = 1 := by
      rw [List.count_cons]
      simp [h2]
    simp [outerShapesOk, h1, this]

/-- The channel counts on which the constructor's shape check fails. -/
def Rejected (outer : Bool) (C nRegion d : ℕ) : Prop := outer = false ∧ (C = 3 ∧ 2 ≤ d ∨ nRegion = 3 ∧ 3 ≤ d)

theorem addProd_two {n : Net} {mode : Mode} {outer : Bool} {d : ℕ} (hF : n.F = 2 ^ (d + 1)) :
    addProd n mode 2 outer = if outer = false ∧ n.C = 3 ∧ 1 ≤ d then .error .shapeError else .ok (.prod n mode 2 outer) := by
  have hne : n.F ≠ 1 := by
    rw [hF, pow_succ]
    have := Nat.one_le_two_pow (n := d)
    omega
  have hdiv : n.F / 2 = 2 ^ d := by rw [hF, pow_succ]; exact Nat.mul_div_cancel _ (by omega)
  unfold addProd
  cases outer with
  | true => simp [outerShapes_two]
  | false =>
    simp only [Bool.false_eq_true, if_false, hne, hdiv, true_and]
    by_cases hr : n.C = 3 ∧ 1 ≤ d
    · have : ¬ elemShapesOk (outShapes 2 (2 ^ d) n.C) = true := by
        rw [elemShapes_two, not_not]
        refine ⟨hr.1, ?_, ?_⟩
        · intro h
          have := Nat.pow_le_pow_right (show 0 < 2 by omega) hr.2
          omega
        · intro h
          have : 2 ∣ 2 ^ d := dvd_pow_self 2 (by omega)
          omega
      rw [if_neg this, if_pos hr]
    · have : elemShapesOk (outShapes 2 (2 ^ d) n.C) = true := by
        rw [elemShapes_two]
        rintro ⟨h1, h2, h3⟩
        refine hr ⟨h1, ?_⟩
        rcases Nat.eq_zero_or_pos d with rfl | hd
        · exact absurd rfl h2
        · exact hd
      rw [if_pos this, if_neg hr]

theorem addProd_eq {n p : Net} {mode : Mode} {k : ℕ} {outer : Bool} (h : addProd n mode k outer = .ok p) :
    p = .prod n mode k outer := by
  unfold addProd at h
  generalize (if outer then outerShapesOk (outShapes k (n.F / k) (n.C ^ k))
    else elemShapesOk (outShapes k (if n.F = 1 then 1 else n.F / k) n.C)) = b at h
  cases b with
  | true => simpa using h.symm
  | false => simp at h

/-- What `layers` returns for two parts. -/
structure Built (μ : Var → Measure ℝ) (d nRoot : ℕ) (n m : Net) : Prop where
  good : m.Good μ
  one : m.F = 1
  reps : m.R = n.R
  chans : m.C = if d = 0 then n.C else nRoot
  leaf : m.leafOf = n.leafOf
  depth : m.depthOf = n.depthOf
  samp : n.Samp → m.Samp
  wide : n.Wide → m.Wide
  allF : 1 ≤ d → m.allF
  allC : 1 ≤ d → m.allC

theorem layers_two {mode : Mode} {outer : Bool} {nRoot nRegion : ℕ} {W : ℕ → ℕ → ℕ → ℕ → ℕ → LogV} (hroot : 1 ≤ nRoot)
    (hreg : 1 ≤ nRegion) (hW : ∀ l f ci co r, W l f ci co r ≠ ⊥) : ∀ (d : ℕ) (n : Net), n.Good μ → n.F = 2 ^ d →
      (Rejected outer n.C nRegion d → layers mode 2 outer nRoot nRegion W d n = .error .shapeError) ∧
      (¬ Rejected outer n.C nRegion d → ∃ m, layers mode 2 outer nRoot nRegion W d n = .ok m ∧ Built μ d nRoot n m) := by
  intro d
  induction d with
  | zero =>
    intro n hn hF
    refine ⟨fun h => ?_, fun _ => ⟨n, rfl, hn, by simpa using hF, rfl, rfl, rfl, rfl, id, id, by omega, by omega⟩⟩
    unfold Rejected at h; omega
  | succ d ih =>
    intro n hn hF
    have he : 2 ∣ n.F ∧ 2 ≤ n.F := by
      rw [hF, pow_succ]
      have := Nat.one_le_two_pow (n := d)
      exact ⟨Dvd.intro_left _ rfl, by omega⟩
    have hdiv : n.F / 2 = 2 ^ d := by rw [hF, pow_succ]; exact Nat.mul_div_cancel _ (by omega)
    set p : Net := .prod n mode 2 outer with hp
    set Co := if d = 0 then nRoot else nRegion with hCo
    have hCo1 : 1 ≤ Co := by rw [hCo]; split_ifs <;> assumption
    have hpg : p.Good μ := ⟨hn, rfl, he⟩
    have hsg : (Net.sum p Co (W d)).Good μ := ⟨hpg, hCo1, fun f _ co _ r _ => ⟨0, Net.posC hpg, hW _ _ _ _ _⟩⟩
    have hsF : (Net.sum p Co (W d)).F = 2 ^ d := by
      show Net.prodF n.F 2 outer = _
      rw [prodF_two (Net.even_F he).1, hdiv]
    have hstep : layers mode 2 outer nRoot nRegion W (d + 1) n = (addProd n mode 2 outer >>= fun p =>
        layers mode 2 outer nRoot nRegion W d (.sum p Co (W d))) := rfl
    obtain ⟨ih1, ih2⟩ := ih (.sum p Co (W d)) hsg hsF
    rw [hstep, addProd_two hF]
    have hrej : Rejected outer n.C nRegion (d + 1) ↔ (outer = false ∧ n.C = 3 ∧ 1 ≤ d) ∨
        Rejected outer (Net.sum p Co (W d)).C nRegion d := by
      unfold Rejected
      show _ ↔ _ ∨ (outer = false ∧ (Co = 3 ∧ 2 ≤ d ∨ nRegion = 3 ∧ 3 ≤ d))
      rw [hCo]
      cases outer
      · simp only [true_and]
        split_ifs
        · omega
        · omega
      · simp
    by_cases hr : outer = false ∧ n.C = 3 ∧ 1 ≤ d
    · rw [if_pos hr]
      exact ⟨fun _ => rfl, fun h => absurd (hrej.2 (.inl hr)) h⟩
    · rw [if_neg hr]
      constructor
      · intro h
        rcases hrej.1 h with h | h
        · exact absurd h hr
        · exact ih1 h
      · intro h
        obtain ⟨m, hm, hb⟩ := ih2 fun h' => h (hrej.2 (.inr h'))
        refine ⟨m, hm, hb.good, hb.one, hb.reps, ?_, hb.leaf, hb.depth, fun hs => hb.samp hs, fun hs => hb.wide hs, fun _ => ?_,
          fun _ => ?_⟩
        · rw [hb.chans, if_neg (show ¬ d + 1 = 0 by omega)]
          by_cases h0 : d = 0
          · rw [if_pos h0]
            show Co = nRoot
            rw [hCo, if_pos h0]
          · rw [if_neg h0]
        · rcases Nat.eq_zero_or_pos d with rfl | hd
          · cases hm; exact trivial
          · exact hb.allF hd
        · rcases Nat.eq_zero_or_pos d with rfl | hd
          · cases hm; exact trivial
          · exact hb.allC hd

/-! ### Splits into three or more parts -/

theorem chunks_three {mode : Mode} {k F L : ℕ} (hk : 3 ≤ k) (hF : 1 ≤ F) {c : List (List ℕ)}
    (h : Net.chunks mode k F = .ok c) (hall : ∀ l ∈ c, l.length = L) (hL : L = Net.prodF F k false) : 1 ≤ L ∧ 3 * L ≤ F := by
  have hdiv : 3 * (F / k) ≤ F := by
    calc 3 * (F / k) ≤ k * (F / k) := Nat.mul_le_mul_right _ hk
      _ ≤ F := Nat.mul_div_le F k
  have hL' : L = if F = 1 then 1 else F / k := by rw [hL]; simp [Net.prodF]
  cases mode with
  | consecutive =>
    have h' : Split.torchSplit (F / k) (List.range F) = .ok c := by
      have := h
      unfold Net.chunks Split.splitConsecutive at this
      simpa using this
    have hpos : F / k ≠ 0 := by
      intro h0
      rw [h0] at h'
      cases F with
      | zero => omega
      | succ F => simp [Split.torchSplit, List.range_succ_eq_map] at h'
    have h1 : F ≠ 1 := by
      rintro rfl
      exact hpos (Nat.div_eq_of_lt (by omega))
    rw [if_neg h1] at hL'
    omega
  | interleaved =>
    have h' : c = Split.splitInterleaved k (List.range F) := by
      unfold Net.chunks at h; cases h; rfl
    have mem : ∀ i < k, Split.strided k i (List.range F) ∈ c := by
      intro i hi
      rw [h']
      exact List.mem_map.2 ⟨i, List.mem_range.2 hi, rfl⟩
    have hlen : ∀ i, (Split.strided k i (List.range F)).length = ((List.range F).filter fun j => j % k = i).length := by
      intro i
      unfold Split.strided
      rw [List.length_range, List.filterMap_eq_map_iff_forall_eq_some (f := fun j => (List.range F)[j]?) (g := id) |>.2]
      · simp
      · intro j hj
        have := List.mem_range.1 (List.mem_filter.1 hj).1
        simp [this]
    have e0 := hall _ (mem 0 (by omega))
    have e1 := hall _ (mem 1 (by omega))
    rw [hlen] at e0 e1
    have hp0 : 1 ≤ L := by
      rw [← e0]
      refine List.length_pos_of_mem (a := 0) (List.mem_filter.2 ⟨List.mem_range.2 hF, by simp⟩)
    have h1 : F ≠ 1 := by
      rintro rfl
      have hk1 : ¬ (0 % k = 1) := by simp
      rw [← e1] at hp0
      simp at hp0
    rw [if_neg h1] at hL'
    omega

/-- An elementwise product over `k ≥ 3` parts can only be evaluated if it shrinks the features by three. -/
theorem prod_three {n : Net} {mode : Mode} {k : ℕ} (hk : 3 ≤ k) (hF : 1 ≤ n.F) {x : Row} {T : NT}
    (h : (Net.prod n mode k false).logLik x = .ok T) :
    (∃ T', n.logLik x = .ok T') ∧ 1 ≤ (Net.prod n mode k false).F ∧ 3 * (Net.prod n mode k false).F ≤ n.F := by
  simp only [Net.logLik, bind, Except.bind, pure, Except.pure, throw, throwThe, MonadExceptOf.throw] at h
  cases h1 : n.logLik x with
  | error ex => rw [h1] at h; cases h
  | ok T' =>
    rw [h1] at h
    cases h2 : Net.chunks mode k n.F with
    | error ex => rw [h2] at h; cases h
    | ok c =>
      rw [h2] at h
      simp only at h
      split at h
      · cases h
      · rename_i hne
        have hall : ∀ l ∈ c, l.length = Net.prodF n.F k false := by simpa using hne
        exact ⟨⟨T', rfl⟩, chunks_three hk hF h2 hall rfl⟩

theorem three_parts {mode : Mode} {k : ℕ} (hk : 3 ≤ k) {nRoot nRegion : ℕ} {W : ℕ → ℕ → ℕ → ℕ → ℕ → LogV} {x : Row} :
    ∀ (d : ℕ) (n m : Net), 1 ≤ n.F → layers mode k false nRoot nRegion W d n = .ok m → ∀ T, m.logLik x = .ok T →
      (∃ T', n.logLik x = .ok T') ∧ 1 ≤ m.F ∧ 3 ^ d * m.F ≤ n.F := by
  intro d
  induction d with
  | zero =>
    intro n m hF h T hT
    cases h
    exact ⟨⟨T, hT⟩, hF, by simp⟩
  | succ d ih =>
    intro n m hF h T hT
    simp only [layers, bind, Except.bind] at h
    cases hp : addProd n mode k false with
    | error ex => rw [hp] at h; cases h
    | ok p =>
      rw [hp] at h
      have hpe : p = .prod n mode k false := addProd_eq hp
      subst hpe
      simp only at h
      by_cases hpF : 1 ≤ (Net.prod n mode k false).F
      · obtain ⟨⟨T1, hT1⟩, h2, h3⟩ := ih _ m (by exact hpF) h T hT
        have : ∃ T2, (Net.prod n mode k false).logLik x = .ok T2 := by
          rw [Net.logLik] at hT1
          cases h4 : (Net.prod n mode k false).logLik x with
          | error ex => rw [h4] at hT1; cases hT1
          | ok T2 => exact ⟨T2, rfl⟩
        obtain ⟨T2, hT2⟩ := this
        obtain ⟨a, b, c⟩ := prod_three hk hF hT2
        refine ⟨a, h2, ?_⟩
        have h3' : 3 ^ d * m.F ≤ (Net.prod n mode k false).F := h3
        calc 3 ^ (d + 1) * m.F = 3 * (3 ^ d * m.F) := by ring
          _ ≤ 3 * (Net.prod n mode k false).F := Nat.mul_le_mul_left _ h3'
          _ ≤ n.F := c
      · -- no features are left: the layer itself raises
        exfalso
        have key : ∀ (d : ℕ) (q : Net), (∀ T, q.logLik x ≠ .ok T) → layers mode k false nRoot nRegion W d q = .ok m →
            ∀ T, m.logLik x ≠ .ok T := by
          intro d
          induction d with
          | zero => intro q hq hm; cases hm; exact hq
          | succ d ihd =>
            intro q hq hm
            simp only [layers, bind, Except.bind] at hm
            cases hp2 : addProd q mode k false with
            | error ex => rw [hp2] at hm; cases hm
            | ok p2 =>
              rw [hp2] at hm
              have hpe : p2 = .prod q mode k false := addProd_eq hp2
              subst hpe
              refine ihd _ ?_ hm
              intro T hT
              simp only [Net.logLik, bind, Except.bind] at hT
              cases h1 : q.logLik x with
              | error ex => rw [h1] at hT; cases hT
              | ok T' => exact hq T' h1
        refine key d _ ?_ h T hT
        intro T hT
        rw [Net.logLik] at hT
        cases h4 : (Net.prod n mode k false).logLik x with
        | error ex => rw [h4] at hT; cases hT
        | ok T2 => exact hpF (prod_three hk hF h4).2.1

end Verif.Rat

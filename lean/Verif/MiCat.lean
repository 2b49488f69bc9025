import Verif.MiProps

/-! Lemmas for C71: categorical data. -/

namespace Verif.Mi

open Finset
open Verif.Span (Edge IsSpanningTree)
open Verif.Hclt (states)
open Verif.ChowLiu

variable {f : ℕ}

/-! ### Counting with `bincount` -/

theorem sum_filter_snd (c : ℕ) : ∀ l : List (ℤ × ℝ), bincount l c = (l.map fun p => if p.1 = (c : ℤ) then p.2 else 0).sum
  | [] => by simp [bincount]
  | p :: l => by
    have ih := sum_filter_snd c l
    unfold bincount at ih ⊢
    by_cases h : p.1 = (c : ℤ)
    · simp [h, ← ih]
    · simp [h, ← ih]

theorem sum_flatMap {α : Type} (g : α → List (ℤ × ℝ)) (h : ℤ × ℝ → ℝ) : ∀ l : List α,
    ((l.flatMap g).map h).sum = (l.map fun p => ((g p).map h).sum).sum
  | [] => by simp
  | p :: l => by
    rw [List.flatMap_cons, List.map_append, List.sum_append, sum_flatMap g h l, List.map_cons, List.sum_cons]

theorem zipIdx_sum {α : Type} (l : List α) (g : α × ℕ → ℝ) :
    (l.zipIdx.map g).sum = ∑ i : Fin l.length, g (l[i], (i : ℕ)) := by
  have : l.zipIdx.map g = List.ofFn fun i : Fin l.length => g (l[i], (i : ℕ)) := by
    refine List.ext_getElem (by simp) fun i h1 h2 => ?_
    simp
  rw [this, List.sum_ofFn]

/-- Codes are unique. -/
theorem euclid {K : ℤ} {a b a' b' : ℤ} (h : a * K + b = a' * K + b') (hb : 0 ≤ b) (hb2 : b < K) (hc : 0 ≤ b') (hc2 : b' < K) :
    a = a' ∧ b = b' := by
  have hK : 0 < K := by omega
  have h1 : (a * K + b) / K = a := by
    rw [Int.add_comm, Int.add_mul_ediv_right _ _ hK.ne', Int.ediv_eq_zero_of_lt hb hb2, zero_add]
  have h2 : (a' * K + b') / K = a' := by
    rw [Int.add_comm, Int.add_mul_ediv_right _ _ hK.ne', Int.ediv_eq_zero_of_lt hc hc2, zero_add]
  have h3 : a = a' := by rw [← h1, ← h2, h]
  subst h3
  exact ⟨rfl, by linarith⟩

theorem code_iff {K : ℕ} {a b : ℤ} (ha : 0 ≤ a) (ha2 : a < K) (hb : 0 ≤ b) (hb2 : b < K) {i k l p : ℕ} (hk : k < K) (hl : l < K) :
    a * (K : ℤ) + b + (i : ℤ) * ((K * K : ℕ) : ℤ) = ((p * (K * K) + k * K + l : ℕ) : ℤ) ↔ i = p ∧ a = (k : ℤ) ∧ b = (l : ℤ) := by
  push_cast
  constructor
  · intro h
    have h1 : ((i : ℤ) * K + a) * K + b = ((p : ℤ) * K + k) * K + l := by linarith
    obtain ⟨h2, h3⟩ := euclid h1 hb hb2 (by omega) (by omega)
    obtain ⟨h4, h5⟩ := euclid h2 ha ha2 (by omega) (by omega)
    exact ⟨by omega, h5, h3⟩
  · rintro ⟨rfl, rfl, rfl⟩
    ring

/-- Weight of the rows where features `i`, `j` are `k`, `l`. -/
noncomputable def pairCount (x : List (Fin f → ℤ)) (w : List ℝ) (i j : Fin f) (k l : ℕ) : ℝ :=
  ((x.zip w).map fun p => if p.1 i = (k : ℤ) ∧ p.1 j = (l : ℤ) then p.2 else 0).sum

theorem bincount_flat {K : ℕ} {x : List (Fin f → ℤ)} (hx : ∀ r ∈ x, ∀ i, 0 ≤ r i ∧ r i < K) (w : List ℝ) (batch : List (Edge f))
    {b : ℕ} (hb : b < batch.length) {k l : ℕ} (hk : k < K) (hl : l < K) :
    bincount (flatCodes x w K batch) (b * (K * K) + k * K + l) = pairCount x w batch[b].1 batch[b].2 k l := by
  rw [sum_filter_snd]
  unfold flatCodes pairCount
  rw [sum_flatMap]
  congr 1
  refine List.map_congr_left fun p hp => ?_
  have hr := hx p.1 (List.of_mem_zip hp).1
  rw [List.map_map, zipIdx_sum]
  rw [Fintype.sum_eq_single ⟨b, hb⟩]
  · simp only [Function.comp_apply]
    simp only [code_iff (hr _).1 (hr _).2 (hr _).1 (hr _).2 hk hl, true_and]
    rfl
  · intro i hi
    simp only [Function.comp_apply]
    rw [if_neg]
    rw [code_iff (hr _).1 (hr _).2 (hr _).1 (hr _).2 hk hl]
    rintro ⟨h, -⟩
    exact hi (Fin.ext h)

/-! ### The matrix -/

/-- Joint probability of a pair. -/
noncomputable def pairP (x : List (Fin f → ℤ)) (w : List ℝ) (pc Z : ℝ) (K : ℕ) (i j : Fin f) (k l : ℕ) : ℝ :=
  (pairCount x w i j k l + pc / (K * K : ℕ)) / Z

/-- Clamped mutual information of a pair. -/
noncomputable def pairMi (x : List (Fin f → ℤ)) (w : List ℝ) (pc Z eps : ℝ) (K : ℕ) (e : Edge f) : ℝ :=
  ∑ k ∈ Finset.range K, ∑ l ∈ Finset.range K, pairP x w pc Z K e.1 e.2 k l *
    (Real.log (max (pairP x w pc Z K e.1 e.2 k l) eps) - Real.log (max (single x w pc Z K e.1 k) eps) -
      Real.log (max (single x w pc Z K e.2 l) eps))

theorem miPair_eq {K : ℕ} {x : List (Fin f → ℤ)} (hx : ∀ r ∈ x, ∀ i, 0 ≤ r i ∧ r i < K) (w : List ℝ) (pc Z eps : ℝ)
    (batch : List (Edge f)) {b : ℕ} (hb : b < batch.length) :
    miPair x w pc Z eps K batch b batch[b].1 batch[b].2 = pairMi x w pc Z eps K batch[b] := by
  unfold miPair pairMi
  refine sum_congr rfl fun k hk => sum_congr rfl fun l hl => ?_
  have h : jointCat x w pc Z K batch b k l = pairP x w pc Z K batch[b].1 batch[b].2 k l := by
    unfold jointCat pairP
    rw [bincount_flat hx w batch hb (Finset.mem_range.1 hk) (Finset.mem_range.1 hl)]
  rw [h]

/-- One entry of the matrix and its mirror image. -/
noncomputable def put (V : Edge f → ℝ) (m : Fin f → Fin f → ℝ) (e : Edge f) : Fin f → Fin f → ℝ :=
  fun i j => if (i = e.1 ∧ j = e.2) ∨ (i = e.2 ∧ j = e.1) then V e else m i j

theorem store_eq {K : ℕ} {x : List (Fin f → ℤ)} (hx : ∀ r ∈ x, ∀ i, 0 ≤ r i ∧ r i < K) (w : List ℝ) (pc Z eps : ℝ)
    (m : Fin f → Fin f → ℝ) (batch : List (Edge f)) :
    store x w pc Z eps K m batch = batch.foldl (put (pairMi x w pc Z eps K)) m := by
  unfold store
  have h : ∀ (l : List (Edge f × ℕ)) (m : Fin f → Fin f → ℝ), (∀ q ∈ l, ∃ h : q.2 < batch.length, q.1 = batch[q.2]) →
      l.foldl (fun m q =>
        let v := miPair x w pc Z eps K batch q.2 q.1.1 q.1.2
        fun i j => if (i = q.1.1 ∧ j = q.1.2) ∨ (i = q.1.2 ∧ j = q.1.1) then v else m i j) m =
      (l.map Prod.fst).foldl (put (pairMi x w pc Z eps K)) m := by
    intro l
    induction l with
    | nil => intro m _; rfl
    | cons q l ih =>
      intro m hl
      rw [List.foldl_cons, List.map_cons, List.foldl_cons]
      rw [ih _ fun q' hq' => hl q' (List.mem_cons_of_mem _ hq')]
      congr 1
      obtain ⟨h1, h2⟩ := hl q List.mem_cons_self
      unfold put
      simp only [h2, miPair_eq hx w pc Z eps batch h1]
  rw [h, List.zipIdx_map_fst]
  intro q hq
  obtain ⟨h1, h2⟩ := List.mem_zipIdx' hq
  exact ⟨h1, h2⟩

theorem batches_flatten {α : Type} {c : ℕ} (hc : 1 ≤ c) (l : List α) : (batches c l).flatten = l := by
  have h : ∀ m, ((List.range m).map fun k => (l.drop (k * c)).take c).flatten = l.take (m * c) := by
    intro m
    induction m with
    | zero => simp
    | succ m ih =>
      rw [List.range_succ, List.map_append, List.flatten_append, ih, Nat.succ_mul, List.take_add]
      simp
  unfold batches
  rw [h, List.take_of_length_le]
  have h2 := Nat.div_add_mod (l.length + c - 1) c
  have h3 := Nat.mod_lt (l.length + c - 1) (show 0 < c by omega)
  have h4 := Nat.mul_comm c ((l.length + c - 1) / c)
  omega

theorem mem_triu (e : Edge f) : e ∈ triu f ↔ e.1 < e.2 := by
  unfold triu
  rw [List.mem_flatMap]
  constructor
  · rintro ⟨i, -, h⟩
    obtain ⟨j, hj, rfl⟩ := List.mem_map.1 h
    simpa using hj
  · intro h
    exact ⟨e.1, List.mem_finRange _, List.mem_map.2 ⟨e.2, by simpa using h, rfl⟩⟩

theorem foldl_put (V : Edge f → ℝ) (i j : Fin f) : ∀ (l : List (Edge f)) (m : Fin f → Fin f → ℝ), (∀ e ∈ l, e.1 < e.2) →
    l.foldl (put V) m i j = if (i, j) ∈ l then V (i, j) else if (j, i) ∈ l then V (j, i) else m i j
  | [], m, _ => by simp
  | e :: l, m, h => by
    rw [List.foldl_cons, foldl_put V i j l _ fun e' he' => h e' (List.mem_cons_of_mem _ he')]
    have h0 := h e List.mem_cons_self
    by_cases h1 : (i, j) ∈ l
    · rw [if_pos h1, if_pos (List.mem_cons_of_mem _ h1)]
    · rw [if_neg h1]
      by_cases h2 : (j, i) ∈ l
      · rw [if_pos h2]
        have h3 : (i, j) ∉ e :: l := by
          intro h3
          have h4 := h _ h3
          have h5 := h _ (List.mem_cons_of_mem _ h2)
          exact absurd h4 (not_lt.2 h5.le)
        rw [if_neg h3, if_pos (List.mem_cons_of_mem _ h2)]
      · rw [if_neg h2]
        unfold put
        by_cases h3 : i = e.1 ∧ j = e.2
        · have h4 : (i, j) = e := Prod.ext h3.1 h3.2
          rw [if_pos (Or.inl h3), if_pos (by rw [h4]; exact List.mem_cons_self), h4]
        · by_cases h5 : i = e.2 ∧ j = e.1
          · have h4 : (j, i) = e := Prod.ext h5.2 h5.1
            have h6 : (i, j) ∉ e :: l := by
              intro h6
              rcases List.mem_cons.1 h6 with h7 | h7
              · exact h3 ⟨congrArg Prod.fst h7, congrArg Prod.snd h7⟩
              · exact h1 h7
            rw [if_pos (Or.inr h5), if_neg h6, if_pos (by rw [h4]; exact List.mem_cons_self), h4]
          · have h6 : (i, j) ∉ e :: l := by
              intro h6
              rcases List.mem_cons.1 h6 with h7 | h7
              · exact h3 ⟨congrArg Prod.fst h7, congrArg Prod.snd h7⟩
              · exact h1 h7
            have h8 : (j, i) ∉ e :: l := by
              intro h6
              rcases List.mem_cons.1 h6 with h7 | h7
              · exact h5 ⟨congrArg Prod.snd h7, congrArg Prod.fst h7⟩
              · exact h2 h7
            rw [if_neg (by tauto), if_neg h6, if_neg h8]

/-- The matrix, entry by entry; the chunk size does not occur. -/
theorem matrixCat_eq {K : ℕ} {x : List (Fin f → ℤ)} (hx : ∀ r ∈ x, ∀ i, 0 ≤ r i ∧ r i < K) (w : List ℝ) (pc Z eps : ℝ)
    {c : ℕ} (hc : 1 ≤ c) (i j : Fin f) :
    matrixCat x w pc Z eps K c i j = if i < j then pairMi x w pc Z eps K (i, j) else if j < i then pairMi x w pc Z eps K (j, i)
      else - ∑ k ∈ Finset.range K, single x w pc Z K i k * Real.log (max (single x w pc Z K i k) eps) := by
  unfold matrixCat
  have h1 : ∀ (bs : List (List (Edge f))) (m : Fin f → Fin f → ℝ),
      bs.foldl (store x w pc Z eps K) m = bs.flatten.foldl (put (pairMi x w pc Z eps K)) m := by
    intro bs
    induction bs with
    | nil => intro m; rfl
    | cons b bs ih => intro m; rw [List.foldl_cons, ih, List.flatten_cons, List.foldl_append, store_eq hx]
  rw [h1, batches_flatten hc, foldl_put _ _ _ _ _ fun e he => (mem_triu e).1 he]
  simp only [mem_triu]
  by_cases h2 : i < j
  · simp [h2]
  · rw [if_neg h2, if_neg h2]
    by_cases h3 : j < i
    · simp [h3]
    · rw [if_neg h3, if_neg h3, if_pos (le_antisymm (not_lt.1 h3) (not_lt.1 h2))]

end Verif.Mi

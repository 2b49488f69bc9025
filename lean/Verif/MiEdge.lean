import Verif.MiTrees

/-! C71: which arguments are accepted, what does not matter, and a worked example. -/

namespace Verif.Mi

open Finset
open Verif.Span (Edge IsSpanningTree)
open Verif.Hclt (states Rooted rooted)
open Verif.ChowLiu

variable {f : ℕ}

/-! ### Acceptance -/

/-- Weights that are accepted: none, or one finite weight per row.  Negative weights are not rejected. -/
def WeightsOk (N : ℕ) (w : Option (List (Option ℝ))) : Prop := ∀ l, w = some l → l.length = N ∧ none ∉ l

/-- Sum of the weights. -/
noncomputable def totalWeight (N : ℕ) : Option (List (Option ℝ)) → ℝ
  | none => N
  | some l => (l.map fun t => t.getD 0).sum

theorem readWeights_iff (N : ℕ) (l : List (Option ℝ)) (w : List ℝ) :
    readWeights N l = .ok w ↔ l.length = N ∧ none ∉ l ∧ w = l.map fun t => t.getD 0 := by
  unfold readWeights
  by_cases h1 : l.length = N
  · rw [if_neg (by simpa using h1)]
    by_cases h2 : (none : Option ℝ) ∈ l
    · rw [if_pos (List.any_eq_true.2 ⟨none, h2, rfl⟩)]
      simp [h2]
    · rw [if_neg]
      · simp [h1, h2, eq_comm]
      · intro h
        obtain ⟨t, ht, hn⟩ := List.any_eq_true.1 h
        rw [Option.isNone_iff_eq_none.1 hn] at ht
        exact h2 ht
  · rw [if_pos h1]
    simp [h1]

/-- `pairwise_mi_binary` accepts exactly: a pseudo-count that is not negative, one finite weight per row (of any sign), and
a positive total mass.  The data themselves are not checked. -/
theorem C71_binary_accepts_iff (data : List (Rec f)) (weights : Option (List (Option ℝ))) (pc eps : ℝ) :
    (∃ mi, miBinary data weights pc eps = .ok mi) ↔
      0 ≤ pc ∧ WeightsOk data.length weights ∧ 0 < totalWeight data.length weights + pc := by
  unfold miBinary marginalBinary
  simp only [bind, Except.bind, pure, Except.pure, throw, throwThe, MonadExceptOf.throw]
  by_cases h1 : pc < 0
  · simp [h1]
  · simp only [h1, if_false]
    have h1' := not_lt.1 h1
    cases weights with
    | none =>
      simp only [binWeights]
      have e : (List.replicate data.length (1 : ℝ)).sum = data.length := by simp
      by_cases h2 : (List.replicate data.length (1 : ℝ)).sum + pc ≤ 0
      · rw [if_pos h2]
        rw [e] at h2
        simp [totalWeight, h2]
      · rw [if_neg h2]
        rw [e] at h2
        simp [totalWeight, h1', WeightsOk, not_le.1 h2]
    | some l =>
      simp only [binWeights]
      cases hr : readWeights data.length l with
      | error e =>
        constructor
        · rintro ⟨mi, h⟩; cases h
        · rintro ⟨-, h, -⟩
          obtain ⟨h3, h4⟩ := h l rfl
          rw [(readWeights_iff _ _ _).2 ⟨h3, h4, rfl⟩] at hr
          cases hr
      | ok w =>
        obtain ⟨h3, h4, rfl⟩ := (readWeights_iff _ _ _).1 hr
        have hw : WeightsOk data.length (some l) := by rintro l' ⟨⟩; exact ⟨h3, h4⟩
        simp only [totalWeight]
        by_cases h2 : (l.map fun t => t.getD 0).sum + pc ≤ 0
        · rw [if_pos h2]
          simp [h2]
        · rw [if_neg h2]
          simp [h1', hw, not_le.1 h2]

/-- Number of categories: as given, or one more than the largest truncated value. -/
theorem numCats_some (x : List (Fin f → ℤ)) (K : ℤ) : numCats x (some K) = K := rfl

/-- `pairwise_mi_categorical` accepts exactly: complete data whose truncated values are categories, a pseudo-count that is
not negative, a positive chunk size, one finite weight per row (of any sign, and at least one row if weights are given),
and a positive total mass. -/
theorem C71_categorical_accepts_iff (data : List (Rec f)) (nc : Option ℤ) (weights : Option (List (Option ℝ)))
    (pseudo : ℝ) (chunk : ℤ) (eps : ℝ) :
    (∃ mi, miCategorical data nc weights pseudo chunk eps = .ok mi) ↔
      0 ≤ pseudo ∧ 1 ≤ chunk ∧ (∀ x ∈ data, ∀ i, x i ≠ none) ∧ 1 ≤ numCats (toLong data) nc ∧
      (∀ x ∈ toLong data, ∀ i, 0 ≤ x i ∧ x i < numCats (toLong data) nc) ∧ WeightsOk data.length weights ∧
      (weights ≠ none → data ≠ []) ∧
      0 < totalWeight data.length weights +
        (if weights = none then pseudo else pseudo * totalWeight data.length weights / data.length) := by
  unfold miCategorical
  simp only [bind, Except.bind, pure, Except.pure, throw, throwThe, MonadExceptOf.throw]
  by_cases h1 : pseudo < 0
  · simp [h1]
  rw [if_neg h1]
  try simp only []
  have h1' := not_lt.1 h1
  by_cases h2 : chunk < 1
  · simp [h2]
  rw [if_neg h2]
  try simp only []
  have h2' := not_lt.1 h2
  by_cases h3 : (entries data).any Option.isNone = false
  swap
  · rw [if_pos (by simpa using h3)]
    rw [entries_any] at h3
    constructor
    · rintro ⟨mi, h⟩; cases h
    · rintro ⟨-, -, h, -⟩
      exact absurd (fun x hx i => by simpa [Option.isSome_iff_ne_none] using h x hx i) h3
  rw [if_neg (by simp [h3])]
  try simp only []
  have h3' : ∀ x ∈ data, ∀ i, x i ≠ none := by
    intro x hx i
    have := (entries_any _ _).1 h3 x hx i
    simpa [Option.isSome_iff_ne_none] using this
  by_cases h4 : numCats (toLong data) nc ≤ 0
  · rw [if_pos h4]
    constructor
    · rintro ⟨mi, h⟩; cases h
    · rintro ⟨-, -, -, h, -⟩; omega
  rw [if_neg h4]
  try simp only []
  have h4' : 1 ≤ numCats (toLong data) nc := by omega
  have h5 : (entries (toLong data)).any (outside (numCats (toLong data) nc)) = false ↔
      ∀ x ∈ toLong data, ∀ i, 0 ≤ x i ∧ x i < numCats (toLong data) nc := by
    rw [entries_any]
    simp only [outside, Bool.or_eq_false_iff, decide_eq_false_iff_not, not_lt, not_le]
  by_cases h6 : (entries (toLong data)).any (outside (numCats (toLong data) nc)) = false
  swap
  · rw [if_pos (by simpa using h6)]
    constructor
    · rintro ⟨mi, h⟩; cases h
    · rintro ⟨-, -, -, -, h, -⟩
      exact absurd (h5.2 h) h6
  rw [if_neg (by simp [h6])]
  try simp only []
  have h6' := h5.1 h6
  cases weights with
  | none =>
    simp only [catWeights]
    have e : (List.replicate data.length (1 : ℝ)).sum = data.length := by simp
    by_cases h7 : (List.replicate data.length (1 : ℝ)).sum + pseudo ≤ 0
    · rw [if_pos h7]
      rw [e] at h7
      simp [totalWeight, h7]
    · rw [if_neg h7]
      rw [e] at h7
      simp only [totalWeight, if_true, ne_eq, not_true_eq_false, false_implies, true_and]
      exact ⟨fun _ => ⟨h1', h2', h3', h4', h6', (fun _ h => by cases h), not_le.1 h7⟩, fun _ => ⟨_, rfl⟩⟩
  | some l =>
    simp only [catWeights]
    cases hr : readWeights data.length l with
    | error e =>
      constructor
      · rintro ⟨mi, h⟩; cases h
      · rintro ⟨-, -, -, -, -, h, -⟩
        obtain ⟨h8, h9⟩ := h l rfl
        rw [(readWeights_iff _ _ _).2 ⟨h8, h9, rfl⟩] at hr
        cases hr
    | ok w =>
      obtain ⟨h8, h9, rfl⟩ := (readWeights_iff _ _ _).1 hr
      have hw : WeightsOk data.length (some l) := by rintro l' ⟨⟩; exact ⟨h8, h9⟩
      simp only [totalWeight]
      by_cases h10 : data.length = 0
      · rw [if_pos h10]
        constructor
        · rintro ⟨mi, h⟩; cases h
        · rintro ⟨-, -, -, -, -, -, h, -⟩
          exact absurd (List.length_eq_zero_iff.1 h10) (h (by simp))
      · rw [if_neg h10]
        try simp only []
        have h10' : data ≠ [] := fun h => h10 (by rw [h]; rfl)
        have hn : (some l : Option (List (Option ℝ))) ≠ none := by simp
        rw [if_neg hn]
        by_cases h7 : (l.map fun t => t.getD 0).sum + pseudo * (l.map fun t => t.getD 0).sum / data.length ≤ 0
        · rw [if_pos h7]
          constructor
          · rintro ⟨mi, h⟩; cases h
          · rintro ⟨-, -, -, -, -, -, -, h⟩
            exact absurd h (not_lt.2 h7)
        · rw [if_neg h7]
          exact ⟨fun _ => ⟨h1', h2', h3', h4', h6', hw, fun _ => h10', not_le.1 h7⟩, fun _ => ⟨_, rfl⟩⟩

/-! ### What does not matter -/

/-- The chunk size does not change the result. -/
theorem C71_chunk_size (data : List (Rec f)) (nc : Option ℤ) (weights : Option (List (Option ℝ)))
    (pseudo : ℝ) {c c' : ℤ} (hc : 1 ≤ c) (hc' : 1 ≤ c') (eps : ℝ) :
    miCategorical data nc weights pseudo c eps = miCategorical data nc weights pseudo c' eps := by
  unfold miCategorical
  simp only [bind, Except.bind, pure, Except.pure, throw, throwThe, MonadExceptOf.throw]
  rw [if_neg (show ¬ c < 1 by omega), if_neg (show ¬ c' < 1 by omega)]
  by_cases h1 : pseudo < 0
  · rw [if_pos h1, if_pos h1]
  rw [if_neg h1, if_neg h1]
  by_cases h3 : (entries data).any Option.isNone = true
  · rw [if_pos h3, if_pos h3]
  rw [if_neg h3, if_neg h3]
  by_cases h4 : numCats (toLong data) nc ≤ 0
  · rw [if_pos h4, if_pos h4]
  rw [if_neg h4, if_neg h4]
  by_cases h6 : (entries (toLong data)).any (outside (numCats (toLong data) nc)) = true
  · rw [if_pos h6, if_pos h6]
  rw [if_neg h6, if_neg h6]
  have h7 : ∀ x ∈ toLong data, ∀ i, 0 ≤ x i ∧ x i < ((numCats (toLong data) nc).toNat : ℤ) := by
    have h5 := (entries_any (toLong data) (outside (numCats (toLong data) nc))).1 (by simpa using h6)
    intro x hx i
    have := h5 x hx i
    simp only [outside, Bool.or_eq_false_iff, decide_eq_false_iff_not] at this
    omega
  cases hw : catWeights data.length pseudo weights with
  | error e => rfl
  | ok p =>
    by_cases h8 : p.1.sum + p.2 ≤ 0
    · simp only [h8, if_true]
    · simp only [h8, if_false]
      congr 1
      funext i j
      rw [matrixCat_eq h7 _ _ _ _ (by omega), matrixCat_eq h7 _ _ _ _ (by omega)]

theorem trunc_int (k : ℤ) : trunc (k : ℝ) = k := by
  unfold trunc
  split_ifs <;> simp

/-- Values that are not whole numbers are silently truncated towards zero: 1.7 counts as 1 and -0.5 as 0. -/
theorem C71_truncates (data : List (Rec f)) (nc : Option ℤ) (weights : Option (List (Option ℝ)))
    (pseudo : ℝ) (c : ℤ) (eps : ℝ) :
    miCategorical data nc weights pseudo c eps =
      miCategorical (data.map fun x i => (x i).map fun t => ((trunc t : ℤ) : ℝ)) nc weights pseudo c eps := by
  have e1 : toLong (data.map fun x i => (x i).map fun t => ((trunc t : ℤ) : ℝ)) = toLong data := by
    unfold toLong
    rw [List.map_map]
    refine List.map_congr_left fun x _ => ?_
    funext i
    cases h : x i with
    | none => simp [h]
    | some t => simp [h, trunc_int]
  have e2 : (entries (data.map fun x i => (x i).map fun t => ((trunc t : ℤ) : ℝ))).any Option.isNone =
      (entries data).any Option.isNone := by
    rw [Bool.eq_iff_iff, ← not_iff_not, Bool.not_eq_true, Bool.not_eq_true, entries_any, entries_any]
    simp
  unfold miCategorical
  rw [e1, e2, List.length_map]

/-- In binary data everything but 0 counts as 1, including NaN. -/
theorem C71_binary_nonzero (data : List (Rec f)) (weights : Option (List (Option ℝ))) (pc eps : ℝ) :
    miBinary data weights pc eps = miBinary (data.map fun x i => if x i = some 0 then some 0 else some 1) weights pc eps := by
  classical
  have hb : ∀ c : Option ℝ, bit (if c = some 0 then some 0 else some 1) = bit c := by
    intro c
    unfold bit
    by_cases h : c = some 0 <;> simp [h]
  have e : ∀ w : List ℝ, tableBinary (data.map fun x i => if x i = some 0 then some 0 else some 1) w pc = tableBinary data w pc := by
    intro w
    have hm : ∀ (a b : ℝ → ℝ) (i j : Fin f),
        matmul (data.map fun x i => if x i = some 0 then some 0 else some 1) w (fun c => a (bit c)) (fun c => b (bit c)) i j =
          matmul data w (fun c => a (bit c)) (fun c => b (bit c)) i j := by
      intro a b i j
      unfold matmul
      rw [List.zip_map_left, List.map_map]
      congr 1
      refine List.map_congr_left fun p _ => ?_
      show a (bit (if p.1 i = some 0 then some 0 else some 1)) * (b (bit (if p.1 j = some 0 then some 0 else some 1)) * p.2) = _
      rw [hb, hb]
    funext i j s
    unfold tableBinary
    have m11 := hm id id i j
    have m10 := hm id (fun t => 1 - t) i j
    have m01 := hm (fun t => 1 - t) id i j
    simp only [id_eq] at m11 m10 m01
    change matmul _ w bit bit i j = matmul data w bit bit i j at m11
    simp only [m11, m10, m01]
  unfold miBinary marginalBinary
  simp only [e, List.length_map]

/-- NaN entries are rejected for categorical data. -/
theorem C71_categorical_rejects_nan (data : List (Rec f)) (nc : Option ℤ) (weights : Option (List (Option ℝ)))
    {pseudo : ℝ} (hp : 0 ≤ pseudo) {c : ℤ} (hc : 1 ≤ c) (eps : ℝ) {x : Rec f} (hx : x ∈ data) {i : Fin f} (hn : x i = none) :
    miCategorical data nc weights pseudo c eps = .error .invalidParameter := by
  unfold miCategorical
  simp only [bind, Except.bind, pure, Except.pure, throw, throwThe, MonadExceptOf.throw]
  rw [if_neg (not_lt.2 hp), if_neg (by omega), if_pos]
  by_contra h
  have := (entries_any _ _).1 (Bool.not_eq_true _ ▸ h) x hx i
  rw [hn] at this
  cases this

theorem foldr_max (a : ℤ) : ∀ l : List ℤ, (l.foldr max a = a ∨ l.foldr max a ∈ l) ∧ ∀ t ∈ l, t ≤ l.foldr max a
  | [] => ⟨Or.inl rfl, fun t h => by cases h⟩
  | b :: l => by
    obtain ⟨h1, h2⟩ := foldr_max a l
    rw [List.foldr_cons]
    constructor
    · rcases max_choice b (l.foldr max a) with h | h
      · rw [h]; exact Or.inr List.mem_cons_self
      · rw [h]
        rcases h1 with h1 | h1
        · exact Or.inl h1
        · exact Or.inr (List.mem_cons_of_mem _ h1)
    · intro t ht
      rcases List.mem_cons.1 ht with rfl | ht
      · exact le_max_left _ _
      · exact (h2 t ht).trans (le_max_right _ _)

theorem mem_entries {α : Type} (data : List (Fin f → α)) (y : α) : y ∈ entries data ↔ ∃ x ∈ data, ∃ i, x i = y := by
  unfold entries
  rw [List.mem_flatMap]
  simp [List.mem_ofFn]

/-- Without `num_cats`, the number of categories is one more than the largest (truncated) value. -/
theorem C71_infers_categories (hf : 0 < f) {data : List (Rec f)} (hd : data ≠ []) : ∃ K : ℤ,
    (∀ x ∈ toLong data, ∀ i, x i < K) ∧ (∃ x ∈ toLong data, ∃ i, x i + 1 = K) ∧
    ∀ weights pseudo c eps, miCategorical data none weights pseudo c eps = miCategorical data (some K) weights pseudo c eps := by
  refine ⟨numCats (toLong data) none, ?_, ?_, fun weights pseudo c eps => rfl⟩
  all_goals
    have hne : entries (toLong data) ≠ [] := by
      obtain ⟨x, hx⟩ := List.exists_mem_of_ne_nil _ hd
      have : trunc ((x ⟨0, hf⟩).getD 0) ∈ entries (toLong data) :=
        (mem_entries _ _).2 ⟨_, List.mem_map.2 ⟨x, hx, rfl⟩, ⟨0, hf⟩, rfl⟩
      exact List.ne_nil_of_mem this
    have hn : (entries (toLong data)).isEmpty = false := by simpa using hne
    simp only [numCats, hn, Bool.false_eq_true, if_false]
    obtain ⟨h1, h2⟩ := foldr_max ((entries (toLong data)).headD 0) (entries (toLong data))
  · intro x hx i
    have := h2 (x i) ((mem_entries _ _).2 ⟨x, hx, i, rfl⟩)
    omega
  · have h3 : (entries (toLong data)).foldr max ((entries (toLong data)).headD 0) ∈ entries (toLong data) := by
      rcases h1 with h1 | h1
      · rw [h1]
        cases he : entries (toLong data) with
        | nil => exact absurd he hne
        | cons a l => exact List.mem_cons_self
      · exact h1
    obtain ⟨x, hx, i, hi⟩ := (mem_entries _ _).1 h3
    exact ⟨x, hx, i, by rw [hi]⟩

/-- **Agreement.** On binary data both functions return the same matrix, provided the same pseudo-mass is used: that of the
categorical function is rescaled by the mean weight, that of the binary function is not. -/
theorem C71_agree {rows : List (Fin f → ℕ)} {ws : Option (List ℝ)} (hs : Sample 2 rows ws)
    {pseudo eps : ℝ} (hpc : 0 ≤ pseudo) (he : 0 < eps) {chunk : ℤ} (hc : 1 ≤ chunk)
    (hZ : 0 < (wts rows.length ws).sum + massCat rows.length pseudo ws)
    (hres : Resolved eps 2 (estimate 2 rows ws (massCat rows.length pseudo ws))) :
    miCategorical (rows.map asData) (some 2) (ws.map fun l => l.map some) pseudo chunk eps =
      miBinary (rows.map asData) (ws.map fun l => l.map some) (massCat rows.length pseudo ws) eps := by
  obtain ⟨m, h1, h2, h3⟩ := C71_categorical (K := 2) (by norm_num) hs hpc he hc hZ hres
  obtain ⟨m', h1', h2', h3'⟩ := C71_binary hs (massCat_nonneg hs hpc) he hZ hres
  have e : ((2 : ℕ) : ℤ) = 2 := rfl
  rw [← e, h1, h1']
  congr 1
  funext i j
  by_cases hij : i = j
  · subst hij; rw [h3, h3']
  · rw [h2 i j hij, h2' i j hij]

/-- The matrix is symmetric and has no negative entry. -/
theorem C71_symmetric_nonneg {K : ℕ} (hK : 0 < K) {rows : List (Fin f → ℕ)} {ws : Option (List ℝ)} (hs : Sample K rows ws)
    {pseudo eps : ℝ} (hpc : 0 ≤ pseudo) (he : 0 < eps) {chunk : ℤ} (hc : 1 ≤ chunk)
    (hZ : 0 < (wts rows.length ws).sum + massCat rows.length pseudo ws)
    (hres : Resolved eps K (estimate K rows ws (massCat rows.length pseudo ws))) :
    ∃ mi, miCategorical (rows.map asData) (some (K : ℤ)) (ws.map fun l => l.map some) pseudo chunk eps = .ok mi ∧
      ∀ i j, mi i j = mi j i ∧ 0 ≤ mi i j := by
  obtain ⟨m, h1, h2, h3⟩ := C71_categorical hK hs hpc he hc hZ hres
  have hP : ∀ x ∈ states f K, 0 ≤ estimate K rows ws (massCat rows.length pseudo ws) x :=
    fun x _ => hs.estimate_nonneg (massCat_nonneg hs hpc) x
  have hsum := hs.estimate_sum hK hZ
  refine ⟨m, h1, fun i j => ?_⟩
  by_cases hij : i = j
  · subst hij
    refine ⟨rfl, ?_⟩
    rw [h3]
    unfold entropy
    rw [← sum_neg_distrib]
    refine sum_nonneg fun a _ => ?_
    have := mul_nonpos_of_nonneg_of_nonpos (m1_nonneg hP i a) (Real.log_nonpos (m1_nonneg hP i a) (m1_le_one hP hsum i a))
    linarith
  · rw [h2 i j hij, h2 j i (Ne.symm hij)]
    exact ⟨mutualInfo_comm i j, mutualInfo_nonneg hP hsum i j⟩

/-! ### A worked example -/

namespace Wit

/-- Three binary features: the second copies the first, the third is different. -/
def rows : List (Fin 3 → ℕ) := [![0, 0, 0], ![0, 0, 1], ![1, 1, 0], ![1, 1, 1]]

theorem v2 (a b c : ℕ) : (![a, b, c] : Fin 3 → ℕ) 2 = c := rfl

theorem sample : Sample 2 rows none := by
  refine ⟨by decide, (fun l h => by cases h), (fun l h => by cases h)⟩

theorem resolved : Resolved eps0 2 (estimate 2 rows none 0) :=
  C71_resolved_counts sample (by simp [rows]) (by simp [rows])

theorem smoothResolved : Resolved eps0 2 (estimate 2 rows none 1) :=
  C71_resolved_smoothed (by norm_num) sample one_pos (by norm_num [wts, rows])

theorem total : 0 < (wts rows.length none).sum := by norm_num [wts, rows]

/-- All hypotheses hold for this data set; the mutual information of the first two features is `log 2`, and the third one is
independent of them. -/
theorem C71_example : ∃ mi, miCategorical (rows.map asData) (some 2) none 0 4096 eps0 = .ok mi ∧
    mi 0 1 = Real.log 2 ∧ mi 0 2 = 0 ∧ mi 2 2 = Real.log 2 := by
  obtain ⟨m, h1, h2, h3⟩ := C71_categorical (K := 2) (ws := none) (chunk := 4096) (pseudo := 0) (eps := eps0) (by norm_num) sample le_rfl
    (by unfold eps0; positivity) (by norm_num) (by simp only [massCat, add_zero]; exact total) resolved
  refine ⟨m, h1, ?_, ?_, ?_⟩
  · rw [h2 0 1 (by decide)]
    have e1 : ∀ i : Fin 3, ∀ a < 2, m1 2 (estimate 2 rows none 0) i a = 1 / 2 := by
      intro i a ha
      unfold estimate
      rw [m1_smoothed (by norm_num) sample.mem i ha]
      have : a = 0 ∨ a = 1 := by omega
      fin_cases i <;> rcases this with rfl | rfl <;> norm_num [rows, wts, List.replicate, v2]
    have e2 : ∀ a < 2, ∀ b < 2, m2 2 (estimate 2 rows none 0) 0 1 a b = if a = b then 1 / 2 else 0 := by
      intro a ha b hb
      unfold estimate
      rw [m2_smoothed (by norm_num) sample.mem (by decide) ha hb]
      have h5 : a = 0 ∨ a = 1 := by omega
      have h6 : b = 0 ∨ b = 1 := by omega
      rcases h5 with rfl | rfl <;> rcases h6 with rfl | rfl <;> norm_num [rows, wts, List.replicate, v2]
    unfold mutualInfo
    simp only [massCat, sum_range_succ, sum_range_zero]
    rw [e2 0 (by norm_num) 0 (by norm_num), e2 0 (by norm_num) 1 (by norm_num), e2 1 (by norm_num) 0 (by norm_num),
      e2 1 (by norm_num) 1 (by norm_num), e1 0 0 (by norm_num), e1 0 1 (by norm_num), e1 1 0 (by norm_num), e1 1 1 (by norm_num)]
    norm_num
    ring
  · rw [h2 0 2 (by decide)]
    have e1 : ∀ i : Fin 3, ∀ a < 2, m1 2 (estimate 2 rows none 0) i a = 1 / 2 := by
      intro i a ha
      unfold estimate
      rw [m1_smoothed (by norm_num) sample.mem i ha]
      have : a = 0 ∨ a = 1 := by omega
      fin_cases i <;> rcases this with rfl | rfl <;> norm_num [rows, wts, List.replicate, v2]
    have e2 : ∀ a < 2, ∀ b < 2, m2 2 (estimate 2 rows none 0) 0 2 a b = 1 / 4 := by
      intro a ha b hb
      unfold estimate
      rw [m2_smoothed (by norm_num) sample.mem (by decide) ha hb]
      have h5 : a = 0 ∨ a = 1 := by omega
      have h6 : b = 0 ∨ b = 1 := by omega
      rcases h5 with rfl | rfl <;> rcases h6 with rfl | rfl <;> norm_num [rows, wts, List.replicate, v2]
    unfold mutualInfo
    simp only [massCat]
    refine sum_eq_zero fun a ha => sum_eq_zero fun b hb => ?_
    rw [Finset.mem_range] at ha hb
    rw [e2 a ha b hb, e1 0 a ha, e1 2 b hb]
    norm_num
  · rw [h3 2]
    have e1 : ∀ a < 2, m1 2 (estimate 2 rows none 0) 2 a = 1 / 2 := by
      intro a ha
      unfold estimate
      rw [m1_smoothed (by norm_num) sample.mem 2 ha]
      have : a = 0 ∨ a = 1 := by omega
      rcases this with rfl | rfl <;> norm_num [rows, wts, List.replicate, v2]
    unfold entropy
    simp only [massCat, sum_range_succ, sum_range_zero]
    rw [e1 0 (by norm_num), e1 1 (by norm_num), one_div, Real.log_inv]
    ring

/-- Trees are learned from it, with and without smoothing. -/
theorem C71_example_trees : ∃ pick : List (Mst.Entry 3) → ℕ, Mst.PopsMin pick ∧
    (∃ t rest, treesCategorical (rows.map asData) (some 2) 2 none 0 4096 pick = .ok (t :: rest) ∧
      MostLikely 2 (estimate 2 rows none 0) t.toFinset) ∧
    (∃ t rest, treesBinary (rows.map asData) 2 none 1 pick = .ok (t :: rest) ∧ MostLikely 2 (estimate 2 rows none 1) t.toFinset) := by
  obtain ⟨pick, hp⟩ := Mst.C27_pick_exists (n := 3)
  refine ⟨pick, hp, ?_, ?_⟩
  · obtain ⟨t, rest, h1, -, h3⟩ := C71_trees_categorical (K := 2) (ws := none) (pseudo := 0) (chunk := 4096) (k := 2) (by norm_num)
      (by norm_num) sample le_rfl (by norm_num) (by simp only [massCat, add_zero]; exact total) resolved (by norm_num) hp
    exact ⟨t, rest, h1, h3⟩
  · obtain ⟨t, rest, h1, -, h3⟩ := C71_trees_binary (ws := none) (pc := 1) (k := 2) (by norm_num)
      sample zero_le_one (by have := total; linarith) smoothResolved (by norm_num) hp
    exact ⟨t, rest, h1, h3⟩

end Wit

end Verif.Mi

import Verif.Routing
import Verif.SamplingLaw

/-!
# Properties C16, C42, C46: routing of sampling contexts
-/

namespace Verif
namespace Routing

open Circ

/-! ## C16 -/

/-- C16, Cat(dim=2): `route_channel_offsets` raises iff a child has no channel or an active position asks for a channel
that does not exist. -/
theorem C16_route_error_iff (W : ℕ) (counts : List ℕ) (ch : ℕ → ℕ) (mask : ℕ → Bool) :
    (∃ e, routeOffsets W counts ch mask = .error e) ↔
      (∃ k ∈ counts, k = 0) ∨ ∃ f < W, mask f = true ∧ counts.sum ≤ ch f := by
  unfold routeOffsets
  constructor
  · rintro ⟨e, h⟩
    split at h
    · rename_i h1
      simp only [List.any_eq_true, decide_eq_true_eq] at h1
      obtain ⟨k, hk, h1⟩ := h1
      exact .inl ⟨k, hk, by omega⟩
    · split at h
      · rename_i h2
        simp only [List.any_eq_true, List.mem_range, Bool.and_eq_true, decide_eq_true_eq] at h2
        exact .inr h2
      · cases h
  · rintro (⟨k, hk, rfl⟩ | ⟨f, hf, hm, hc⟩)
    · rw [if_pos (by simp only [List.any_eq_true, decide_eq_true_eq]; exact ⟨0, hk, by omega⟩)]
      exact ⟨_, rfl⟩
    · split
      · exact ⟨_, rfl⟩
      · rw [if_pos (by
          simp only [List.any_eq_true, List.mem_range, Bool.and_eq_true, decide_eq_true_eq]
          exact ⟨f, hf, hm, hc⟩)]
        exact ⟨_, rfl⟩

/-- C16, Cat(dim=2): otherwise there is one context per child, every active position is active in exactly one child,
with a channel in range of that child and at the right offset; inactive positions are active in no child. Local channels
of non-owners are in range too, so the children's gathers cannot fail. -/
theorem C16_route_unique_owner (W : ℕ) (counts : List ℕ) (ch : ℕ → ℕ) (mask : ℕ → Bool) {ctx}
    (h : routeOffsets W counts ch mask = .ok ctx) :
    ∃ hl : ctx.length = counts.length, ∀ f < W,
      (mask f = true → ∃! i : Fin counts.length, (ctx[i].2 f) = true) ∧
      (mask f = false → ∀ i : Fin counts.length, ctx[i].2 f = false) ∧
      (∀ i : Fin counts.length, ctx[i].1 f < counts[i]) ∧
      (∀ i : Fin counts.length, ctx[i].2 f = true → (counts.take i).sum + ctx[i].1 f = ch f) := by
  have hne : ¬ ∃ e, routeOffsets W counts ch mask = .error e := by rw [h]; rintro ⟨e, he⟩; cases he
  rw [C16_route_error_iff] at hne
  push Not at hne
  obtain ⟨hpos, hrange⟩ := hne
  have hctx : ctx = routeLoop ch mask 0 counts := by
    unfold routeOffsets at h
    split at h
    · cases h
    split at h
    · cases h
    cases h; rfl
  have hl : ctx.length = counts.length := by rw [hctx, routeLoop_length]
  have hget : ∀ i : Fin counts.length, ctx[i] =
      (fun f => if (counts.take i).sum ≤ ch f ∧ ch f < (counts.take i).sum + counts[i] then
          ch f - (counts.take i).sum else 0,
       fun f => decide ((counts.take i).sum ≤ ch f ∧ ch f < (counts.take i).sum + counts[i]) && mask f) := by
    intro i
    have := routeLoop_getElem? ch mask counts 0 i i.2
    rw [← hctx] at this
    have h2 : ctx[i.val]? = some ctx[i] := by simp
    rw [h2] at this
    simp only [zero_add, Option.some.injEq] at this
    exact this
  refine ⟨hl, fun f hf => ⟨fun hm => ?_, fun hm i => ?_, fun i => ?_, fun i hi => ?_⟩⟩
  · obtain ⟨i, k, hi, hk, he⟩ := exists_catCh_index counts (ch f) (hrange f hf hm)
    refine ⟨⟨i, hi⟩, ?_, ?_⟩
    · dsimp only
      rw [hget]
      simp only [hm, Bool.and_true, decide_eq_true_eq]
      exact ⟨by omega, by rw [he]; exact Nat.add_lt_add_left hk _⟩
    · intro j hj
      rw [hget] at hj
      simp only [Bool.and_eq_true, decide_eq_true_eq] at hj
      have h1 : (counts.take i).sum ≤ ch f ∧ ch f < (counts.take i).sum + counts[i] :=
        ⟨by omega, by rw [he]; exact Nat.add_lt_add_left hk _⟩
      obtain ⟨⟨h2, h3⟩, _⟩ := hj
      rcases lt_trichotomy j.val i with hlt | heq | hgt
      · have := take_sum_le counts j.2 hlt
        simp only [Fin.getElem_fin] at h3
        omega
      · exact Fin.ext heq
      · have := take_sum_le counts hi hgt
        omega
  · rw [hget]; simp [hm]
  · rw [hget]
    have hp : counts[i] ≠ 0 := hpos _ (List.getElem_mem _)
    dsimp only
    split <;> omega
  · rw [hget] at hi ⊢
    simp only [Bool.and_eq_true, decide_eq_true_eq] at hi
    simp only [if_pos hi.1]
    omega

/-- C16, Cat(dim=1): child `i` receives exactly the positions `off_i .. off_i + width_i - 1` of the context, so every
position is handed to exactly one child, at its own place. -/
theorem C16_slice_unique_owner (widths : List ℕ) (ch : ℕ → ℕ) (mask : ℕ → Bool) :
    (∀ (i : Fin widths.length) (j : ℕ), j < widths[i] →
      ∃ s, (sliceLoop ch mask 0 widths)[i.val]? = some s ∧
        s.1 j = ch ((widths.take i).sum + j) ∧ s.2 j = mask ((widths.take i).sum + j)) ∧
    ∀ f < widths.sum, ∃! p : Fin widths.length × ℕ, p.2 < widths[p.1] ∧ f = (widths.take p.1).sum + p.2 := by
  refine ⟨fun i j _ => ⟨_, sliceLoop_getElem? ch mask widths 0 i i.2, by simp, by simp⟩, fun f hf => ?_⟩
  obtain ⟨i, k, hi, hk, he⟩ := exists_catCh_index widths f hf
  refine ⟨(⟨i, hi⟩, k), ⟨hk, he⟩, ?_⟩
  rintro ⟨j, k'⟩ ⟨hk', he'⟩
  dsimp only at hk' he'
  simp only [Fin.getElem_fin] at hk'
  have hij : j.val = i := by
    rcases lt_trichotomy j.val i with hlt | heq | hgt
    · have := take_sum_le widths j.2 hlt; omega
    · exact heq
    · have := take_sum_le widths hi hgt; omega
  obtain rfl : j = ⟨i, hi⟩ := Fin.ext hij
  simp only [Prod.mk.injEq, true_and]
  dsimp only at he'
  omega

/-- A concrete context: three children with 2, 1 and 3 channels, positions asking for channels 1, 4, 2. -/
example : (routeOffsets 3 [2, 1, 3] (fun f => if f = 0 then 1 else if f = 1 then 4 else 2) fun _ => true).toOption.map
    (fun l => l.map fun s => ((List.range 3).map s.1, (List.range 3).map s.2)) =
    some [([1, 0, 0], [true, false, false]), ([0, 0, 0], [false, false, true]),
      ([0, 1, 0], [false, true, false])] := by decide

/-! ## C42 -/

theorem fsum_real (l : List ℝ) : fsum (l.map fun x : ℝ => some (x : LogV)) = some ((l.sum : ℝ) : LogV) := by
  induction l with
  | nil => rfl
  | cons x l ih => rw [List.map_cons, fsum, ih, List.sum_cons]; rfl

/-- C42 on finite tensors: indexing with the one-hot encoding of `k` gives what `gather` gives. -/
theorem C42_index_one_hot_finite (n k : ℕ) (t : ℕ → ℝ) (hot : ℕ → ℝ) (h : toOneHot k n = .ok hot) :
    indexOneHot n (fun i => (t i : LogV)) hot = (gather n (fun i => (t i : LogV)) k).toOption := by
  unfold toOneHot at h
  split at h
  · cases h
  split at h
  · cases h
  rename_i h1 h2
  cases h
  have hk : k < n := by omega
  unfold indexOneHot gather
  rw [if_pos hk]
  simp only [Int.toNat_natCast]
  have e : ((List.range n).map fun i => fmul ((t i : ℝ) : LogV) (if i = k then 1 else 0)) =
      (((List.range n).map fun i => if i = k then t i else 0).map fun x : ℝ => some (x : LogV)) := by
    rw [List.map_map]
    refine List.map_congr_left fun i _ => ?_
    show some _ = some _
    by_cases hik : i = k <;> simp [hik]
  rw [e, fsum_real]
  have : ((List.range n).map fun i => if i = k then t i else 0).sum = t k := by
    have h3 : ((List.range n).map fun i => if i = k then t i else 0).sum =
        ∑ i ∈ Finset.range n, if i = k then t i else 0 := rfl
    rw [h3, Finset.sum_eq_single k]
    · simp
    · intro b _ hb; simp [hb]
    · intro hn; exact absurd (Finset.mem_range.2 hk) hn
  rw [this]; rfl

/-- C42 is false for tensors with `-inf` at an unselected position: one-hot indexing yields NaN (`0 * -inf`), gather
does not.  Such tensors occur in differentiable conditional sampling, where cached log-likelihoods are indexed
(sum.py:351-356). -/
theorem C42_neg_inf_gives_nan (n k j : ℕ) (hk : k < n) (hj : j < n) (hjk : j ≠ k) (t : ℕ → LogV) (ht : t j = ⊥)
    (hot : ℕ → ℝ) (h : toOneHot k n = .ok hot) :
    indexOneHot n t hot = none ∧ gather n t k = .ok (t k) := by
  refine ⟨?_, if_pos hk⟩
  have hhot : hot j = 0 := by
    unfold toOneHot at h
    split at h
    · cases h
    split at h
    · cases h
    cases h
    simp [hjk]
  have key : ∀ l : List (Option LogV), none ∈ l → fsum l = none := by
    intro l
    induction l with
    | nil => simp
    | cons x l ih =>
      intro hm
      cases x with
      | none => rfl
      | some x =>
        have : none ∈ l := by simpa using hm
        simp [fsum, ih this]
  apply key
  rw [List.mem_map]
  exact ⟨j, List.mem_range.2 hj, by rw [ht, hhot]; exact if_pos rfl⟩

/-- `to_one_hot` succeeds exactly on indices in range, and `argmax` inverts it: position `k` is the unique maximum. -/
theorem C42_one_hot_argmax (k : Int) (n : ℕ) :
    ((∃ hot, toOneHot k n = .ok hot) ↔ 0 ≤ k ∧ k < n) ∧
    ∀ hot, toOneHot k n = .ok hot → hot k.toNat = 1 ∧ ∀ i, i ≠ k.toNat → hot i = 0 := by
  unfold toOneHot
  refine ⟨⟨?_, ?_⟩, ?_⟩
  · rintro ⟨hot, h⟩
    split at h
    · cases h
    split at h
    · cases h
    omega
  · rintro ⟨h1, h2⟩
    rw [if_neg (by omega), if_neg (by omega)]
    exact ⟨_, rfl⟩
  · intro hot h
    split at h
    · cases h
    split at h
    · cases h
    cases h
    exact ⟨if_pos rfl, fun i hi => if_neg hi⟩

/-- C42 for Cat routing: the differentiable router, fed the one-hot encoding of the integer channel, activates the same
child as the integer router and hands it the one-hot encoding of the same local channel; all other children get the zero
vector and an inactive mask. -/
theorem C42_route_one_hot (counts : List ℕ) (ch : ℕ) (mask : Bool) (off i : ℕ) (hi : i < counts.length) :
    let own := off + (counts.take i).sum ≤ ch ∧ ch < off + (counts.take i).sum + counts[i]
    ∃ s, (routeHotLoop (fun j => if j = ch then 1 else 0) mask off counts)[i]? = some s ∧
      s.2 = (decide own && mask) ∧
      ∀ j, s.1 j = if own ∧ j = ch - (off + (counts.take i).sum) then 1 else 0 := by
  induction counts generalizing off i with
  | nil => simp at hi
  | cons k ks ih =>
    cases i with
    | zero =>
      have hmass : ∑ i ∈ Finset.range k, (if off + i = ch then (1:ℝ) else 0) =
          if off ≤ ch ∧ ch < off + k then 1 else 0 := by
        split
        · rename_i h
          rw [Finset.sum_eq_single (ch - off)]
          · rw [if_pos (by omega)]
          · intro b _ hb; rw [if_neg (by omega)]
          · intro hn; exact absurd (Finset.mem_range.2 (by omega)) hn
        · rename_i h
          refine Finset.sum_eq_zero fun i hi => if_neg ?_
          have := Finset.mem_range.1 hi
          omega
      refine ⟨_, rfl, ?_, ?_⟩
      · simp only [hmass, List.take_zero, List.sum_nil, add_zero, List.getElem_cons_zero]
        congr 1
        by_cases h : off ≤ ch ∧ ch < off + k <;> simp [h]
      · intro j
        simp only [hmass, List.take_zero, List.sum_nil, add_zero, List.getElem_cons_zero]
        by_cases h : off ≤ ch ∧ ch < off + k
        · by_cases hj : j = ch - off
          · have h1 : j < k := by omega
            have h2 : off + j = ch := by omega
            rw [if_pos h1, if_pos h, if_pos zero_lt_one, if_pos h2, if_pos ⟨h, hj⟩, div_one]
          · have h2 : off + j ≠ ch := by omega
            simp [h2, hj]
        · simp [h]
    | succ i =>
      obtain ⟨s, h1, h2, h3⟩ := ih (off + k) i (by simpa using hi)
      refine ⟨s, by simpa [routeHotLoop] using h1, ?_, ?_⟩
      · rw [h2]; simp only [List.take_succ_cons, List.sum_cons, add_assoc, List.getElem_cons_succ]
      · intro j; rw [h3]; simp only [List.take_succ_cons, List.sum_cons, add_assoc, List.getElem_cons_succ]

/-! ## C46 -/

/-- C46: if all ids of the leaf exist as columns, the sample for the `j`-th variable goes to that variable's own column,
the same one `log_likelihood` reads. -/
theorem C46_global_columns (q : List Int) (W : ℕ) (h : ∀ rv ∈ q, 0 ≤ rv ∧ rv < W) :
    resolveColumns q W = .ok (q.map Int.toNat) ∧ likelihoodColumns q W = .ok (q.map Int.toNat) := by
  have hall : q.all (fun rv => decide (0 ≤ rv) && decide (rv < W)) = true := by
    simpa [List.all_eq_true] using h
  unfold resolveColumns likelihoodColumns
  rw [if_pos hall]
  refine ⟨?_, if_pos hall⟩
  split
  · rename_i h0
    rw [List.length_eq_zero_iff.1 h0]; rfl
  · rfl

/-- C46, all cases: the call succeeds iff every id is a column or the width equals the number of variables; columns are
always distinct and in range (for duplicate-free queries). -/
theorem C46_columns_partial (q : List Int) (hq : q.Nodup) (hpos : ∀ rv ∈ q, 0 ≤ rv) (W : ℕ) :
    ((∃ e, resolveColumns q W = .error e) ↔ (∃ rv ∈ q, (W : Int) ≤ rv) ∧ W ≠ q.length) ∧
    ∀ cols, resolveColumns q W = .ok cols → cols.length = q.length ∧ cols.Nodup ∧ ∀ c ∈ cols, c < W := by
  have hall : q.all (fun rv => decide (0 ≤ rv) && decide (rv < W)) = true ↔ ∀ rv ∈ q, rv < (W : Int) := by
    simp only [List.all_eq_true, Bool.and_eq_true, decide_eq_true_eq]
    exact ⟨fun h rv hrv => (h rv hrv).2, fun h rv hrv => ⟨hpos rv hrv, h rv hrv⟩⟩
  unfold resolveColumns
  split
  · rename_i h0
    obtain rfl := List.length_eq_zero_iff.1 h0
    constructor
    · constructor
      · rintro ⟨e, he⟩; cases he
      · rintro ⟨⟨rv, hrv, _⟩, _⟩; simp at hrv
    · intro cols h; cases h; simp
  · split
    · rename_i h1
      rw [hall] at h1
      constructor
      · constructor
        · rintro ⟨e, he⟩; cases he
        · rintro ⟨⟨rv, hrv, h2⟩, _⟩
          have := h1 rv hrv
          omega
      · intro cols h; cases h
        refine ⟨by simp, ?_, ?_⟩
        · refine (List.nodup_map_iff_inj_on hq).2 fun a ha b hb hab => ?_
          have := hpos a ha
          have := hpos b hb
          omega
        · intro c hc
          obtain ⟨rv, hrv, rfl⟩ := List.mem_map.1 hc
          have := h1 rv hrv
          have := hpos rv hrv
          omega
    · rename_i h1
      rw [hall] at h1
      push Not at h1
      split
      · rename_i h2
        constructor
        · constructor
          · rintro ⟨e, he⟩; cases he
          · rintro ⟨_, h3⟩; exact absurd h2 h3
        · intro cols h; cases h
          exact ⟨by simp [h2], List.nodup_range, fun c hc => List.mem_range.1 hc⟩
      · rename_i h2
        exact ⟨⟨fun _ => ⟨h1, h2⟩, fun _ => ⟨_, rfl⟩⟩, fun cols h => by cases h⟩

/-- C46 is false when the width happens to equal the number of variables of one leaf: in a data tensor with two columns
the leaf over variables (0,5) writes variable 5 into column 1, which is the column of the variable of the leaf over (1) -
two variables of one circuit share a column - while `log_likelihood` on the same data raises. -/
theorem C46_columns_collide :
    resolveColumns [0, 5] 2 = .ok [0, 1] ∧ resolveColumns [1] 2 = .ok [1] ∧
    likelihoodColumns [0, 5] 2 = .error .indexError := by decide

/-- C46 for `sample(num_samples=n)`: the tensor it allocates has one column per variable of the module's scope.  A leaf of
the module that does not cover the whole scope is sampled only if all its ids are smaller than the number of variables;
otherwise the call raises.  So variables of different leaves never share a column. -/
theorem C46_allocated_partial (S q : List Int) (hq : q.Nodup) (hsub : ∀ rv ∈ q, rv ∈ S)
    (hproper : ∃ rv ∈ S, rv ∉ q) (cols : List ℕ)
    (h : resolveColumns q (allocatedWidth S) = .ok cols) : cols = q.map Int.toNat := by
  have hlen : q.length < S.length := by
    obtain ⟨rv, hrv, hn⟩ := hproper
    have h1 : (rv :: q).Nodup := List.nodup_cons.2 ⟨hn, hq⟩
    have h2 : (rv :: q) ⊆ S := by
      intro a ha
      rcases List.mem_cons.1 ha with rfl | ha
      · exact hrv
      · exact hsub a ha
    have := (List.subperm_of_subset h1 h2).length_le
    simpa using this
  unfold resolveColumns allocatedWidth at h
  split at h
  · rename_i h0
    cases h
    rw [List.length_eq_zero_iff.1 h0]; rfl
  · split at h
    · cases h; rfl
    · split at h
      · omega
      · cases h

/-- `sample(num_samples=1)` on a circuit over the variables {0, 2} split into two leaves raises. -/
example : resolveColumns [2] (allocatedWidth [0, 2]) = .error .shapeError := by decide

end Routing
end Verif

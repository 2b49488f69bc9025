import Verif.Factorize
import Verif.RoutingProps
import Mathlib.Data.List.Perm.Basic
import Mathlib.Data.List.Perm.Subperm
import Mathlib.Data.List.GetD
import Mathlib.Algebra.BigOperators.Group.List.Basic
/-
C20: Factorize partitions the input features.
-/
namespace Verif.Fact

theorem groupSizes_length (F n : Nat) : (groupSizes F n).length = n := by simp [groupSizes]

theorem sum_map_lt (n k c : Nat) (hk : k ≤ n) :
    ((List.range n).map fun i => if i < k then c + 1 else c).sum = n * c + k := by
  induction n generalizing k with
  | zero => simp; omega
  | succ n ih =>
    rw [List.range_succ, List.map_append, List.sum_append]
    rcases Nat.lt_or_ge n k with h | h
    · obtain rfl : k = n + 1 := by omega
      have e : ((List.range n).map fun i => if i < n + 1 then c + 1 else c)
          = (List.range n).map fun i => if i < n then c + 1 else c := by
        apply List.map_congr_left
        intro i hi
        have := List.mem_range.mp hi
        rw [if_pos (by omega), if_pos (by omega)]
      rw [e, ih n le_rfl]
      simp
      ring
    · rw [ih k h]
      simp [Nat.not_lt.mpr h]
      ring

theorem groupSizes_sum (F n : Nat) (hn : 0 < n) : (groupSizes F n).sum = F := by
  have hd := Nat.div_add_mod F n
  have hm := Nat.mod_lt F hn
  have hc : F / n * n = n * (F / n) := Nat.mul_comm _ _
  rw [groupSizes, sum_map_lt]
  · omega
  · omega

/-- The groups, when `sizes` sums to the number of features, are the consecutive blocks of `perm`. -/
theorem groupsFrom_spec (perm : List Nat) (F n : Nat) (hp : perm.length = F) :
    ∀ (sizes : List Nat) (o off : Nat), o + sizes.length = n → off + sizes.sum = F →
      (groupsFrom perm F n o off sizes).flatten = perm.drop off ∧
      (groupsFrom perm F n o off sizes).map List.length = sizes := by
  intro sizes
  induction sizes with
  | nil =>
    intro o off _ hs
    simp only [List.sum_nil, Nat.add_zero] at hs
    subst hs
    constructor
    · simp [groupsFrom, ← hp]
    · simp [groupsFrom]
  | cons s ss ih =>
    intro o off hl hs
    rw [groupsFrom]
    rw [List.sum_cons] at hs
    rw [List.length_cons] at hl
    have hhigh : (if o = n - 1 then F else off + s) = off + s := by
      split
      · have : ss = [] := List.length_eq_zero_iff.mp (by omega)
        subst this
        simp at hs; omega
      · rfl
    rw [hhigh]
    obtain ⟨h1, h2⟩ := ih (o + 1) (off + s) (by omega) (by omega)
    constructor
    · rw [List.flatten_cons, h1]
      have : perm.drop (off + s) = (perm.drop off).drop s := by rw [List.drop_drop]
      rw [this, List.drop_take, Nat.add_sub_cancel_left, List.take_append_drop]
    · rw [List.map_cons, h2]
      congr 1
      rw [List.length_drop, List.length_take, hp]
      omega

/-- **C20.** For every shuffle of the group sizes and every permutation of the features: Factorize
succeeds iff there are at least `2^depth` features, and then the `2^depth` groups contain every input
feature exactly once, none is empty, and any two sizes differ by at most one. -/
theorem C20_partition (F depth : Nat) (sizes perm : List Nat)
    (hs : sizes.Perm (groupSizes F (2 ^ depth))) (hp : perm.Perm (List.range F)) :
    (F < 2 ^ depth → factorize F depth sizes perm = .error .structureError) ∧
    (2 ^ depth ≤ F → ∃ groups, factorize F depth sizes perm = .ok groups ∧
      groups.length = 2 ^ depth ∧
      groups.flatten.Perm (List.range F) ∧
      (∀ g ∈ groups, g ≠ []) ∧
      (∀ g ∈ groups, ∀ h ∈ groups, g.length ≤ h.length + 1)) := by
  constructor
  · intro h; rw [factorize, if_pos h]
  · intro h
    have hn : 0 < 2 ^ depth := Nat.two_pow_pos depth
    have hlen : perm.length = F := by rw [hp.length_eq, List.length_range]
    have hsl : sizes.length = 2 ^ depth := by rw [hs.length_eq, groupSizes_length]
    have hss : sizes.sum = F := by rw [hs.sum_eq, groupSizes_sum F _ hn]
    obtain ⟨h1, h2⟩ := groupsFrom_spec perm F (2 ^ depth) hlen sizes 0 0 (by omega) (by omega)
    refine ⟨_, by rw [factorize, if_neg (by omega)], ?_, ?_, ?_, ?_⟩
    · rw [← List.length_map (f := List.length), h2, hsl]
    · rw [h1, List.drop_zero]; exact hp
    · intro g hg hge
      have : g.length ∈ sizes := by rw [← h2]; exact List.mem_map_of_mem hg
      rw [hs.mem_iff, groupSizes] at this
      obtain ⟨i, _, hi⟩ := List.mem_map.mp this
      have hpos : 0 < F / 2 ^ depth := Nat.div_pos h hn
      subst hge
      simp only [List.length_nil] at hi
      split at hi <;> omega
    · intro g hg g' hg'
      have a1 : g.length ∈ sizes := by rw [← h2]; exact List.mem_map_of_mem hg
      have a2 : g'.length ∈ sizes := by rw [← h2]; exact List.mem_map_of_mem hg'
      rw [hs.mem_iff, groupSizes] at a1 a2
      obtain ⟨i, _, hi⟩ := List.mem_map.mp a1
      obtain ⟨j, _, hj⟩ := List.mem_map.mp a2
      split at hi <;> split at hj <;> omega

/-! ### Every input feature has exactly one output feature -/

theorem exists_unique_group (F : Nat) (groups : List (List Nat)) (hp : groups.flatten.Perm (List.range F))
    (i : Nat) (hi : i < F) : ∃! o, o < groups.length ∧ i ∈ groups.getD o [] := by
  have hnd : groups.flatten.Nodup := hp.nodup_iff.mpr List.nodup_range
  have hmem : i ∈ groups.flatten := hp.mem_iff.mpr (List.mem_range.mpr hi)
  obtain ⟨g, hg, hig⟩ := List.mem_flatten.mp hmem
  obtain ⟨o, ho, rfl⟩ := List.getElem_of_mem hg
  refine ⟨o, ⟨ho, by rw [List.getD_eq_getElem _ _ ho]; exact hig⟩, ?_⟩
  rintro o' ⟨ho', hi'⟩
  rw [List.getD_eq_getElem _ _ ho'] at hi'
  rw [List.nodup_flatten] at hnd
  by_contra hne
  rcases Nat.lt_or_gt_of_ne hne with h | h
  · exact List.pairwise_iff_getElem.mp hnd.2 o' o ho' ho h hi' hig
  · exact List.pairwise_iff_getElem.mp hnd.2 o o' ho ho' h hig hi'

theorem indicator_eq (groups : List (List Nat)) (i o : Nat) :
    indicator groups i o = if i ∈ groups.getD o [] then 1 else 0 := by
  simp [indicator]

theorem owner_aux (groups : List (List Nat)) (i o : Nat) (ho : i ∈ groups.getD o [])
    (huniq : ∀ o', o' ≠ o → i ∉ groups.getD o' []) (n : Nat) :
    (List.range n).foldl (fun best o => if indicator groups i best < indicator groups i o then o else best) 0
      = if o < n then o else 0 := by
  induction n with
  | zero => simp
  | succ n ih =>
    rw [List.range_succ, List.foldl_append, ih]
    simp only [List.foldl_cons, List.foldl_nil, indicator_eq]
    rcases Nat.lt_trichotomy o n with h | h | h
    · rw [if_pos h, if_pos (by omega : o < n + 1), if_pos ho, if_neg (huniq n (by omega))]
      simp
    · subst h
      rw [if_neg (lt_irrefl o), if_pos (by omega : o < o + 1), if_pos ho]
      by_cases h0 : o = 0
      · subst h0; simp
      · rw [if_neg (huniq 0 (fun h => h0 h.symm))]; simp
    · rw [if_neg (by omega : ¬ o < n), if_neg (by omega : ¬ o < n + 1), if_neg (huniq n (by omega))]
      simp

/-- **C20, indices and sampling owners.** In a partition each input feature has exactly one 1 in its
indicator row, and the owner used when sampling is that output feature. -/
theorem C20_owner (F : Nat) (groups : List (List Nat)) (hp : groups.flatten.Perm (List.range F))
    (i : Nat) (hi : i < F) :
    owner groups i < groups.length ∧
    ∀ o < groups.length, indicator groups i o = if o = owner groups i then 1 else 0 := by
  obtain ⟨o, ⟨ho, hio⟩, huniq⟩ := exists_unique_group F groups hp i hi
  have hu : ∀ o', o' ≠ o → i ∉ groups.getD o' [] := by
    intro o' hne hm
    by_cases h : o' < groups.length
    · exact hne (huniq o' ⟨h, hm⟩)
    · rw [List.getD_eq_default _ _ (by omega)] at hm
      simp at hm
  have hown : owner groups i = o := by
    unfold owner
    rw [owner_aux groups i o hio hu, if_pos ho]
  rw [hown]
  refine ⟨ho, ?_⟩
  intro o' _
  rw [indicator_eq]
  by_cases h : o' = o
  · subst h; rw [if_pos hio, if_pos rfl]
  · rw [if_neg (hu o' h), if_neg h]

/-- **C20, decomposability.** If the input features have pairwise disjoint variable sets, the variable
sets reported for two different output features are disjoint, and every variable is reported by some
output feature. -/
theorem C20_decomposable (F : Nat) (groups : List (List Nat)) (hp : groups.flatten.Perm (List.range F))
    (scopes : Nat → List Nat)
    (hdisj : ∀ i < F, ∀ j < F, i ≠ j → ∀ v ∈ scopes i, v ∉ scopes j) :
    (∀ o < groups.length, ∀ o' < groups.length, o ≠ o' → ∀ v,
      v ∈ (reportedScopes groups F scopes o).flatten → v ∉ (reportedScopes groups F scopes o').flatten) ∧
    (∀ i < F, ∀ v ∈ scopes i, ∃ o < groups.length, v ∈ (reportedScopes groups F scopes o).flatten) := by
  have hmem : ∀ o < groups.length, ∀ v, v ∈ (reportedScopes groups F scopes o).flatten ↔
      ∃ i < F, owner groups i = o ∧ v ∈ scopes i := by
    intro o ho v
    simp only [reportedScopes, List.mem_flatten, List.mem_map, List.mem_filter, List.mem_range,
      decide_eq_true_eq]
    constructor
    · rintro ⟨_, ⟨i, ⟨hi, hpos⟩, rfl⟩, hv⟩
      rw [(C20_owner F groups hp i hi).2 o ho] at hpos
      refine ⟨i, hi, ?_, hv⟩
      by_contra hne
      rw [if_neg (fun h => hne h.symm)] at hpos
      omega
    · rintro ⟨i, hi, rfl, hv⟩
      exact ⟨_, ⟨i, ⟨hi, by rw [(C20_owner F groups hp i hi).2 _ ho, if_pos rfl]; omega⟩, rfl⟩, hv⟩
  constructor
  · intro o ho o' ho' hne v hv hv'
    obtain ⟨i, hi, h1, h2⟩ := (hmem o ho v).mp hv
    obtain ⟨j, hj, h3, h4⟩ := (hmem o' ho' v).mp hv'
    have hij : i ≠ j := fun h => hne (by rw [← h1, ← h3, h])
    exact hdisj i hi j hj hij v h2 h4
  · intro i hi v hv
    have ho := (C20_owner F groups hp i hi).1
    exact ⟨_, ho, (hmem _ ho v).mpr ⟨i, hi, rfl, hv⟩⟩

/-! ### log_likelihood -/

theorem fsum_map_real (l : List Nat) (f : Nat → ℝ) :
    Routing.fsum (l.map fun i => some ((f i : ℝ) : LogV)) = some (((l.map f).sum : ℝ) : LogV) := by
  have := Routing.fsum_real (l.map f)
  rw [List.map_map] at this
  exact this

/-- **C20, log_likelihood, the part that holds.** For finite input log-likelihoods, output feature `o` is
the sum of the log-likelihoods of exactly the input features it owns. -/
theorem C20_log_likelihood_partial (F : Nat) (groups : List (List Nat))
    (hp : groups.flatten.Perm (List.range F)) (lls : Nat → ℝ) (o : Nat) (ho : o < groups.length) :
    logLik groups F (fun i => (lls i : LogV)) o
      = some (((((List.range F).filter fun i => owner groups i = o).map lls).sum : ℝ) : LogV) := by
  unfold logLik
  have e : ((List.range F).map fun i => Routing.fmul ((lls i : ℝ) : LogV) (indicator groups i o))
      = (List.range F).map fun i => some (((if owner groups i = o then lls i else 0 : ℝ)) : LogV) := by
    apply List.map_congr_left
    intro i hi
    rw [(C20_owner F groups hp i (List.mem_range.mp hi)).2 o ho]
    show some _ = some _
    by_cases h : owner groups i = o
    · subst h; simp
    · have h' : ¬ o = owner groups i := fun h2 => h h2.symm
      simp [h, h']
  rw [e, fsum_map_real]
  congr 2
  generalize List.range F = l
  induction l with
  | nil => rfl
  | cons i l ih =>
    rw [List.map_cons, List.sum_cons, ih, List.filter_cons]
    by_cases h : owner groups i = o <;> simp [h]

/-- **C20 is false of log_likelihood at impossible values**: as soon as one input feature that is *not*
owned by `o` has log-likelihood -inf, output feature `o` is NaN (einsum multiplies -inf by 0). -/
theorem C20_neg_inf_poisons (F : Nat) (groups : List (List Nat))
    (hp : groups.flatten.Perm (List.range F)) (lls : Nat → LogV) (o : Nat) (ho : o < groups.length)
    (i : Nat) (hi : i < F) (hown : owner groups i ≠ o) (hbot : lls i = ⊥) :
    logLik groups F lls o = none := by
  have key : ∀ l : List (Option LogV), none ∈ l → Routing.fsum l = none := by
    intro l
    induction l with
    | nil => simp
    | cons x l ih =>
      intro hm
      cases x with
      | none => rfl
      | some x =>
        have : none ∈ l := by simpa using hm
        simp [Routing.fsum, ih this]
  apply key
  rw [List.mem_map]
  refine ⟨i, List.mem_range.mpr hi, ?_⟩
  rw [hbot, (C20_owner F groups hp i hi).2 o ho, if_neg (fun h => hown h.symm)]
  simp only [Nat.cast_zero]
  exact if_pos rfl

/-! ### Sampling -/

/-- **C20, sampling.** Every input feature receives the request of the one output feature whose
log-likelihood contains it; the differentiable path selects the same input features. -/
theorem C20_sampling_routes (F : Nat) (groups : List (List Nat)) (hp : groups.flatten.Perm (List.range F))
    {α : Type} (req : Nat → α) (mask : Nat → Bool) (i : Nat) (hi : i < F) :
    (∃ o < groups.length, i ∈ groups.getD o [] ∧ (routeInt groups F req)[i]? = some (req o)) ∧
    (routeMaskDiff groups F mask)[i]? = (routeInt groups F mask)[i]? := by
  obtain ⟨h1, h2⟩ := C20_owner F groups hp i hi
  constructor
  · refine ⟨owner groups i, h1, ?_, by simp [routeInt, hi]⟩
    have := h2 _ h1
    rw [if_pos rfl, indicator_eq] at this
    by_contra h
    rw [if_neg h] at this
    omega
  · simp only [routeMaskDiff, routeInt, List.getElem?_map, List.getElem?_range hi, Option.map_some,
      Option.some.injEq]
    have e : ((List.range groups.length).map fun o => indicator groups i o * (mask o).toNat)
        = (List.range groups.length).map fun o => if o = owner groups i then (mask (owner groups i)).toNat else 0 := by
      apply List.map_congr_left
      intro o ho
      rw [h2 o (List.mem_range.mp ho)]
      by_cases h : o = owner groups i
      · rw [if_pos h, if_pos h, h]; simp
      · rw [if_neg h, if_neg h]; simp
    rw [e]
    have hsum : ∀ n k c, k < n → ((List.range n).map fun o => if o = k then c else 0).sum = c := by
      intro n
      induction n with
      | zero => intro k c h; omega
      | succ n ih =>
        intro k c h
        rw [List.range_succ, List.map_append, List.sum_append]
        by_cases hk : k = n
        · subst hk
          have : ((List.range k).map fun o => if o = k then c else 0) = (List.range k).map fun _ => 0 := by
            apply List.map_congr_left
            intro o ho
            have := List.mem_range.mp ho
            rw [if_neg (by omega)]
          rw [this]
          simp
        · rw [ih k c (by omega)]
          have : ¬ n = k := fun h => hk h.symm
          simp [this]
    rw [hsum _ _ _ h1]
    cases mask (owner groups i) <;> rfl

/-- Non-vacuity: seven features, depth 1, sizes shuffled to [3, 4]. -/
example : [3, 4].Perm (groupSizes 7 (2 ^ 1)) ∧ [6, 2, 0, 5, 1, 3, 4].Perm (List.range 7) ∧
    (factorize 7 1 [3, 4] [6, 2, 0, 5, 1, 3, 4]).toOption = some [[6, 2, 0], [5, 1, 3, 4]] := by decide

/-- C52 is FALSE for Factorize: a layer with groups {0,1},{2,3} whose `marginalize` is called with variables outside
its scope may come back with groups {0,2},{1,3} (whatever `torch.randperm` draws), i.e. it multiplies other features. -/
theorem C52_factorize_regroups :
    factorize 4 1 [2, 2] [0, 1, 2, 3] = .ok [[0, 1], [2, 3]] ∧
    marginalize [0, 1, 2, 3] [9] 4 1 true [2, 2] [0, 2, 1, 3] = .ok (.layer [[0, 2], [1, 3]]) := by decide

/-- C52 is FALSE for Factorize: with depth 2 over four variables, marginalising one of them raises StructureError,
for every draw and with or without pruning, although the layer itself is valid. -/
theorem C52_factorize_raises (prune : Bool) (sizes perm : List Nat) :
    (∃ g, factorize 4 2 [1, 1, 1, 1] [0, 1, 2, 3] = .ok g) ∧
    marginalize [0, 1, 2, 3] [3] 3 2 prune sizes perm = .error .structureError := by
  refine ⟨⟨[[0], [1], [2], [3]], by decide⟩, ?_⟩
  cases prune <;> rfl

end Verif.Fact

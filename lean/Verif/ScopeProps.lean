import Verif.Scope
import Mathlib.Data.List.Nodup
import Mathlib.Tactic.Tauto

/-! # Properties C01-C04 of `Scope` -/

namespace Verif.Scope

/-! ## Specification -/

/-- What a well-formed scope is, in words of the documentation. -/
structure Valid (s : Scope) : Prop where
  query_nonneg : ∀ q ∈ s.query, 0 ≤ q
  evidence_nonneg : ∀ e ∈ s.evidence, 0 ≤ e
  query_nodup : s.query.Nodup
  evidence_nodup : s.evidence.Nodup
  disjoint : ∀ q ∈ s.query, q ∉ s.evidence
  evidence_needs_query : s.query = [] → s.evidence = []

/-- Scopes a user can obtain through the API. -/
inductive Reachable : Scope → Prop
  | init {q e s} : Scope.init q e = .ok s → Reachable s
  | join {a b s} : Reachable a → Reachable b → Scope.join a b = .ok s → Reachable s
  | joinAll {l s} : (∀ t ∈ l, Reachable t) → Scope.joinAll l = .ok s → Reachable s
  | remove {a rv s} : Reachable a → Scope.removeFromQuery a rv = .ok s → Reachable s
  | copy {a s} : Reachable a → Scope.copy a = .ok s → Reachable s
  | asScope {a s} : (∀ t, a = .scope t → Reachable t) → Scope.asScope a = .ok s → Reachable s

/-! ## Helper lemmas -/

theorem hasDup_iff (xs : List Int) : hasDup xs = true ↔ ¬ xs.Nodup := by
  unfold hasDup
  simp only [bne_iff_ne, ne_eq]
  constructor
  · intro h hn
    exact h (by rw [List.dedup_eq_self.mpr hn])
  · intro h he
    apply h
    have := (List.dedup_sublist xs).eq_of_length he.symm
    exact List.dedup_eq_self.mp this

theorem mk?_ok_iff (q e : List Int) (s : Scope) :
    mk? q e = .ok s ↔ s = ⟨q, e⟩ ∧ Valid ⟨q, e⟩ := by
  unfold mk?
  constructor
  · intro h
    split at h; · simp at h
    split at h; · simp at h
    split at h; · simp at h
    split at h; · simp at h
    split at h; · simp at h
    split at h; · simp at h
    rename_i h1 h2 h3 h4 h5 h6
    simp only [Except.ok.injEq] at h
    refine ⟨h.symm, ?_⟩
    rw [hasDup_iff, not_not] at h4 h5
    simp only [List.any_eq_true, decide_eq_true_eq, not_exists, not_and, not_lt,
      List.contains_iff_mem] at h2 h3 h6
    exact ⟨h2, h3, h4, h5, h6, fun hq => by
      by_contra hne
      exact h1 ⟨by simpa using hq, by simpa using hne⟩⟩
  · rintro ⟨rfl, hv⟩
    have h1 : ¬ (q.length = 0 ∧ e.length ≠ 0) := by
      rintro ⟨ha, hb⟩
      exact hb (by simpa using hv.evidence_needs_query (by simpa using ha))
    have h2 : ¬ (q.any (· < 0) = true) := by
      simpa using hv.query_nonneg
    have h3 : ¬ (e.any (· < 0) = true) := by
      simpa using hv.evidence_nonneg
    have h4 : ¬ (hasDup q = true) := by rw [hasDup_iff, not_not]; exact hv.query_nodup
    have h5 : ¬ (hasDup e = true) := by rw [hasDup_iff, not_not]; exact hv.evidence_nodup
    have h6 : ¬ (q.any (fun q => e.contains q) = true) := by
      simpa using hv.disjoint
    simp only [h1, h2, h3, h4, h5, h6, if_false]; rfl

theorem mem_sortedSet (xs : List Int) (x : Int) : x ∈ sortedSet xs ↔ x ∈ xs := by
  unfold sortedSet; simp

theorem nodup_sortedSet (xs : List Int) : (sortedSet xs).Nodup := by
  unfold sortedSet
  exact (List.perm_insertionSort _ _).nodup_iff.mpr (List.nodup_dedup xs)

theorem sorted_sortedSet (xs : List Int) : (sortedSet xs).Pairwise (· ≤ ·) := by
  exact List.pairwise_insertionSort _ _

theorem sortedSet_ext {xs ys : List Int} (h : ∀ x, x ∈ xs ↔ x ∈ ys) : sortedSet xs = sortedSet ys := by
  have hp : (sortedSet xs).Perm (sortedSet ys) :=
    (List.perm_ext_iff_of_nodup (nodup_sortedSet xs) (nodup_sortedSet ys)).mpr (by
      intro a; rw [mem_sortedSet, mem_sortedSet, h])
  exact hp.eq_of_pairwise (fun a b _ _ h1 h2 => by omega) (sorted_sortedSet xs) (sorted_sortedSet ys)

theorem mem_joinQuery (a b : Scope) (x : Int) : x ∈ joinQuery a b ↔ x ∈ a.query ∨ x ∈ b.query := by
  simp [joinQuery, mem_sortedSet]

theorem mem_joinEvidence (a b : Scope) (x : Int) :
    x ∈ joinEvidence a b ↔ (x ∈ a.evidence ∨ x ∈ b.evidence) ∧ ¬ (x ∈ a.query ∨ x ∈ b.query) := by
  simp only [joinEvidence, mem_sortedSet, List.mem_filter, List.mem_append, Bool.not_eq_true',
    List.contains_eq_mem, decide_eq_false_iff_not]

theorem join_valid {a b : Scope} (ha : Valid a) (hb : Valid b) :
    Valid ⟨joinQuery a b, joinEvidence a b⟩ := by
  refine ⟨?_, ?_, nodup_sortedSet _, nodup_sortedSet _, ?_, ?_⟩
  · intro q hq
    rcases (mem_joinQuery a b q).mp hq with h | h
    · exact ha.query_nonneg q h
    · exact hb.query_nonneg q h
  · intro e he
    rcases ((mem_joinEvidence a b e).mp he).1 with h | h
    · exact ha.evidence_nonneg e h
    · exact hb.evidence_nonneg e h
  · intro q hq he
    exact ((mem_joinEvidence a b q).mp he).2 ((mem_joinQuery a b q).mp hq)
  · intro hnil
    have hnone : ∀ x, ¬ (x ∈ a.query ∨ x ∈ b.query) := fun x hx => by
      have := (mem_joinQuery a b x).mpr hx
      simp only at hnil
      rw [hnil] at this; simp at this
    have ha0 : a.query = [] := List.eq_nil_iff_forall_not_mem.mpr fun x hx => hnone x (.inl hx)
    have hb0 : b.query = [] := List.eq_nil_iff_forall_not_mem.mpr fun x hx => hnone x (.inr hx)
    apply List.eq_nil_iff_forall_not_mem.mpr
    intro x hx
    have := ((mem_joinEvidence a b x).mp hx).1
    rw [ha.evidence_needs_query ha0, hb.evidence_needs_query hb0] at this
    simp at this

theorem join_ok {a b : Scope} (ha : Valid a) (hb : Valid b) :
    join a b = .ok ⟨joinQuery a b, joinEvidence a b⟩ :=
  (mk?_ok_iff _ _ _).mpr ⟨rfl, join_valid ha hb⟩

theorem join_ok_iff {a b s : Scope} :
    join a b = .ok s ↔ s = ⟨joinQuery a b, joinEvidence a b⟩ ∧ Valid s := by
  unfold join
  rw [mk?_ok_iff]
  constructor
  · rintro ⟨rfl, h⟩; exact ⟨rfl, h⟩
  · rintro ⟨rfl, h⟩; exact ⟨rfl, h⟩

theorem setEq_iff (a b : List Int) : setEq a b = true ↔ ∀ x, x ∈ a ↔ x ∈ b := by
  simp only [setEq, Bool.and_eq_true, List.all_eq_true, List.contains_iff_mem]
  exact ⟨fun ⟨h1, h2⟩ x => ⟨h1 x, h2 x⟩, fun h => ⟨fun x => (h x).1, fun x => (h x).2⟩⟩

theorem pyEq_iff (a b : Scope) :
    pyEq a b = true ↔ (∀ x, x ∈ a.query ↔ x ∈ b.query) ∧ (∀ x, x ∈ a.evidence ↔ x ∈ b.evidence) := by
  simp [pyEq, equalQuery, equalEvidence, setEq_iff]

theorem isDisjoint_iff (a b : Scope) : isDisjoint a b = true ↔ ∀ x ∈ a.query, x ∉ b.query := by
  simp [isDisjoint]

theorem foldlM_join_ok (ss : List Scope) (s : Scope) (hs : Valid s) (hss : ∀ t ∈ ss, Valid t) :
    ∃ r, ss.foldlM join s = .ok r ∧ Valid r ∧
      (∀ x, x ∈ r.query ↔ x ∈ s.query ∨ ∃ t ∈ ss, x ∈ t.query) ∧
      (∀ x, x ∈ r.evidence ↔ (x ∈ s.evidence ∨ ∃ t ∈ ss, x ∈ t.evidence) ∧
        ¬ (x ∈ s.query ∨ ∃ t ∈ ss, x ∈ t.query)) := by
  induction ss generalizing s with
  | nil =>
    refine ⟨s, rfl, hs, by simp, ?_⟩
    intro x
    constructor
    · intro h; exact ⟨.inl h, by
        rintro (h' | ⟨t, ht, _⟩)
        · exact hs.disjoint x h' h
        · simp at ht⟩
    · rintro ⟨h | ⟨t, ht, _⟩, _⟩
      · exact h
      · simp at ht
  | cons t ts ih =>
    have ht : Valid t := hss t (by simp)
    obtain ⟨r, hr, hv, hq, he⟩ := ih ⟨joinQuery s t, joinEvidence s t⟩ (join_valid hs ht)
      (fun u hu => hss u (by simp [hu]))
    refine ⟨r, ?_, hv, ?_, ?_⟩
    · rw [List.foldlM_cons, join_ok hs ht]; exact hr
    · intro x
      rw [hq]
      simp only [mem_joinQuery, List.mem_cons, exists_eq_or_imp]
      tauto
    · intro x
      rw [he]
      simp only [mem_joinQuery, mem_joinEvidence, List.mem_cons, exists_eq_or_imp]
      generalize (∃ t, t ∈ ts ∧ x ∈ t.query) = A
      generalize (∃ t, t ∈ ts ∧ x ∈ t.evidence) = B
      tauto

theorem joinAll_ok (l : List Scope) (hne : l ≠ []) (hl : ∀ t ∈ l, Valid t) :
    ∃ r, joinAll l = .ok r ∧ Valid r ∧ (∀ x, x ∈ r.query ↔ ∃ t ∈ l, x ∈ t.query) ∧
      (∀ x, x ∈ r.evidence ↔ (∃ t ∈ l, x ∈ t.evidence) ∧ ¬ ∃ t ∈ l, x ∈ t.query) := by
  cases l with
  | nil => exact absurd rfl hne
  | cons s ss =>
    obtain ⟨r, h1, h2, h3, h4⟩ := foldlM_join_ok ss s (hl s (by simp)) (fun t ht => hl t (by simp [ht]))
    exact ⟨r, h1, h2, by simpa using h3, by simpa using h4⟩

theorem foldlM_join_valid (ss : List Scope) (s r : Scope) (hs : Valid s)
    (h : ss.foldlM join s = .ok r) : Valid r := by
  induction ss generalizing s with
  | nil =>
    have : s = r := by simpa [pure, Except.pure] using h
    exact this ▸ hs
  | cons t ts ih =>
    rw [List.foldlM_cons] at h
    cases hj : join s t with
    | error e => rw [hj] at h; simp [bind, Except.bind] at h
    | ok u =>
      rw [hj] at h
      exact ih u (join_ok_iff.mp hj).2 h

theorem pairwiseLoop_ok (ss : List Scope) (o : Scope) (ho : Valid o) (hss : ∀ t ∈ ss, Valid t) :
    ∃ b, pairwiseLoop o ss = .ok b ∧
      (b = true ↔ ((∀ t ∈ ss, ∀ x ∈ o.query, x ∉ t.query) ∧
        ss.Pairwise (fun s t => ∀ x ∈ s.query, x ∉ t.query))) := by
  induction ss generalizing o with
  | nil => exact ⟨true, rfl, by simp⟩
  | cons t ts ih =>
    have ht : Valid t := hss t (by simp)
    unfold pairwiseLoop
    by_cases hd : isDisjoint o t = true
    · rw [if_pos hd, join_ok ho ht]
      obtain ⟨b, hb, hiff⟩ := ih ⟨joinQuery o t, joinEvidence o t⟩ (join_valid ho ht)
        (fun u hu => hss u (by simp [hu]))
      refine ⟨b, hb, ?_⟩
      rw [hiff, List.pairwise_cons]
      rw [isDisjoint_iff] at hd
      simp only [mem_joinQuery, List.mem_cons, forall_eq_or_imp]
      constructor
      · rintro ⟨h1, h2⟩
        exact ⟨⟨hd, fun u hu x hx => h1 u hu x (.inl hx)⟩, fun u hu x hx => h1 u hu x (.inr hx), h2⟩
      · rintro ⟨⟨_, h1⟩, h2, h3⟩
        exact ⟨fun u hu x hx => hx.elim (h1 u hu x) (h2 u hu x), h3⟩
    · rw [if_neg hd]
      refine ⟨false, rfl, ?_⟩
      rw [isDisjoint_iff] at hd
      constructor
      · intro h; simp at h
      · rintro ⟨h, _⟩; exact absurd (h t (by simp)) hd

/-! ## C01 -/

/-- C01: the constructor accepts exactly the well-formed argument pairs, and stores them unchanged. -/
theorem C01_constructor_accepts_iff_valid (q e : ScopeArg) (s : Scope) :
    Scope.init q e = .ok s ↔ s = ⟨q.toList, e.toList⟩ ∧ Valid s := by
  unfold Scope.init
  rw [mk?_ok_iff]
  constructor
  · rintro ⟨rfl, h⟩; exact ⟨rfl, h⟩
  · rintro ⟨rfl, h⟩; exact ⟨rfl, h⟩

/-- C01: every other argument pair raises InvalidParameterError (never another exception). -/
theorem C01_constructor_rejects (q e : ScopeArg) (h : ¬ Valid ⟨q.toList, e.toList⟩) :
    Scope.init q e = .error .invalidParameter := by
  have hno : ∀ s, Scope.init q e ≠ .ok s := fun s hs => by
    have := (C01_constructor_accepts_iff_valid q e s).mp hs
    exact h (this.1 ▸ this.2)
  have : ∀ q e : List Int, (∀ s, mk? q e ≠ .ok s) → mk? q e = .error .invalidParameter := by
    intro q e hno
    unfold mk? at hno ⊢
    split; · rfl
    split; · rfl
    split; · rfl
    split; · rfl
    split; · rfl
    split; · rfl
    exfalso
    rename_i h1 h2 h3 h4 h5 h6
    exact hno ⟨q, e⟩ (by simp only [h1, h2, h3, h4, h5, h6, if_false]; rfl)
  exact this _ _ hno

/-- C01: every scope obtainable by any sequence of API operations is well formed. -/
theorem C01_reachable_valid {s : Scope} (h : Reachable s) : Valid s := by
  induction h with
  | init h => exact ((C01_constructor_accepts_iff_valid _ _ _).mp h).2
  | join _ _ h _ _ => exact (join_ok_iff.mp h).2
  | @joinAll l s _ h ih =>
    cases l with
    | nil => simp [Scope.joinAll] at h
    | cons t ts => exact foldlM_join_valid ts t s (ih t (by simp)) h
  | remove _ h _ =>
    unfold Scope.removeFromQuery at h
    split at h
    · have := (mk?_ok_iff _ _ _).mp h; exact this.1 ▸ this.2
    · simp at h
  | copy _ h _ => have := (mk?_ok_iff _ _ _).mp h; exact this.1 ▸ this.2
  | @asScope a s _ h ih =>
    cases a with
    | scope t => simp only [Scope.asScope, Except.ok.injEq] at h; exact h ▸ ih t rfl
    | other a => exact ((C01_constructor_accepts_iff_valid _ _ _).mp h).2

/-- C01: join, join_all (non-empty) and copy never raise on scopes the API hands out. -/
theorem C01_join_joinAll_copy_total {a b : Scope} {l : List Scope} (ha : Reachable a) (hb : Reachable b)
    (hl : ∀ t ∈ l, Reachable t) (hne : l ≠ []) :
    (∃ s, Scope.join a b = .ok s) ∧ (∃ s, Scope.joinAll l = .ok s) ∧ Scope.copy a = .ok a := by
  refine ⟨⟨_, join_ok (C01_reachable_valid ha) (C01_reachable_valid hb)⟩, ?_, ?_⟩
  · obtain ⟨r, h, _⟩ := joinAll_ok l hne (fun t ht => C01_reachable_valid (hl t ht))
    exact ⟨r, h⟩
  · exact (mk?_ok_iff _ _ _).mpr ⟨rfl, C01_reachable_valid ha⟩

/-- C01: remove_from_query succeeds exactly when the variable is present and is not the last
query variable of a conditional scope; the result is the scope without that variable. -/
theorem C01_removeFromQuery {a : Scope} (ha : Reachable a) (rv : Int) (s : Scope) :
    Scope.removeFromQuery a rv = .ok s ↔
      rv ∈ a.query ∧ (a.query = [rv] → a.evidence = []) ∧ s = ⟨a.query.erase rv, a.evidence⟩ := by
  have hv := C01_reachable_valid ha
  unfold Scope.removeFromQuery
  by_cases hm : rv ∈ a.query
  · rw [if_pos (by simpa using hm), mk?_ok_iff]
    constructor
    · rintro ⟨rfl, h⟩
      refine ⟨hm, fun heq => h.evidence_needs_query (by simp [heq]), rfl⟩
    · rintro ⟨_, h2, rfl⟩
      refine ⟨rfl, ?_⟩
      refine ⟨fun q hq => hv.query_nonneg q (List.mem_of_mem_erase hq), hv.evidence_nonneg,
        hv.query_nodup.erase rv, hv.evidence_nodup,
        fun q hq => hv.disjoint q (List.mem_of_mem_erase hq), ?_⟩
      intro hnil
      apply h2
      simp only at hnil
      have hperm := List.perm_cons_erase hm
      rw [hnil] at hperm
      exact List.perm_singleton.mp hperm
  · rw [if_neg (by simpa using hm)]
    simp [hm]

-- non-vacuity: a conditional scope over three variables is reachable, and so is a join of two scopes
example : Reachable ⟨[2, 0], [5]⟩ := .init (q := .iter [2, 0]) (e := .int 5) (by decide)
example : Reachable ⟨[0, 2, 3], [4]⟩ :=
  .join (a := ⟨[2, 0], [3]⟩) (b := ⟨[3], [4, 0]⟩) (.init (q := .iter [2, 0]) (e := .int 3) (by decide))
    (.init (q := .int 3) (e := .iter [4, 0]) (by decide)) (by decide +kernel)
example : Scope.init (.iter [1, 1]) .none = .error .invalidParameter := by decide

/-! ## C02 -/

/-- C02: the query of the joint scope is the union, its evidence the union minus that query. -/
theorem C02_join_is_union {a b s : Scope} (h : Scope.join a b = .ok s) :
    (∀ x, x ∈ s.query ↔ x ∈ a.query ∨ x ∈ b.query) ∧
    (∀ x, x ∈ s.evidence ↔ (x ∈ a.evidence ∨ x ∈ b.evidence) ∧ x ∉ a.query ∧ x ∉ b.query) := by
  obtain ⟨rfl, _⟩ := join_ok_iff.mp h
  exact ⟨mem_joinQuery a b, fun x => by rw [mem_joinEvidence]; tauto⟩

/-- C02: join is commutative (even as tuples). -/
theorem C02_join_comm (a b : Scope) : Scope.join a b = Scope.join b a := by
  have h1 : joinQuery a b = joinQuery b a := sortedSet_ext (by intro x; simp [or_comm])
  have h2 : joinEvidence a b = joinEvidence b a := sortedSet_ext (by
    intro x; simp only [List.mem_filter, List.mem_append, Bool.not_eq_true', List.contains_eq_mem,
      decide_eq_false_iff_not]; tauto)
  unfold join; rw [h1, h2]

/-- C02: join is associative. -/
theorem C02_join_assoc {a b c : Scope} (ha : Reachable a) (hb : Reachable b) (hc : Reachable c) :
    (do let ab ← Scope.join a b; Scope.join ab c) = (do let bc ← Scope.join b c; Scope.join a bc) := by
  have ha := C01_reachable_valid ha; have hb := C01_reachable_valid hb; have hc := C01_reachable_valid hc
  rw [join_ok ha hb, join_ok hb hc]
  change Scope.join _ c = Scope.join a _
  rw [join_ok (join_valid ha hb) hc, join_ok ha (join_valid hb hc)]
  have h1 : ∀ x y : Scope, joinQuery x y = sortedSet (x.query ++ y.query) := fun _ _ => rfl
  congr 2
  · rw [h1, h1]; apply sortedSet_ext; intro x; simp only [List.mem_append, mem_joinQuery, mem_sortedSet, or_assoc]
  · unfold joinEvidence
    apply sortedSet_ext; intro x
    simp only [List.mem_filter, List.mem_append, Bool.not_eq_true', List.contains_eq_mem,
      decide_eq_false_iff_not, mem_sortedSet, mem_joinQuery]
    tauto

/-- C02: joining a scope with itself gives an equal scope. -/
theorem C02_join_idem {a : Scope} (ha : Reachable a) :
    ∃ s, Scope.join a a = .ok s ∧ Scope.pyEq s a = true := by
  have hv := C01_reachable_valid ha
  refine ⟨_, join_ok hv hv, (pyEq_iff _ _).mpr ⟨fun x => ?_, fun x => ?_⟩⟩
  · simp [mem_joinQuery]
  · simp only [mem_joinEvidence, or_self]
    exact ⟨fun h => h.1, fun h => ⟨h, fun hq => hv.disjoint x hq h⟩⟩

/-- C02: `join_all` of a non-empty list is the union of all its members. -/
theorem C02_joinAll_is_union {l : List Scope} (hne : l ≠ []) (hl : ∀ t ∈ l, Reachable t) :
    ∃ r, Scope.joinAll l = .ok r ∧ (∀ x, x ∈ r.query ↔ ∃ t ∈ l, x ∈ t.query) ∧
      (∀ x, x ∈ r.evidence ↔ (∃ t ∈ l, x ∈ t.evidence) ∧ ¬ ∃ t ∈ l, x ∈ t.query) := by
  obtain ⟨r, h1, _, h3, h4⟩ := joinAll_ok l hne (fun t ht => C01_reachable_valid (hl t ht))
  exact ⟨r, h1, h3, h4⟩

/-- C02: reordering the list does not change the joint scope (up to `==`). -/
theorem C02_joinAll_perm {l l' : List Scope} (hp : l.Perm l') (hne : l ≠ []) (hl : ∀ t ∈ l, Reachable t) :
    ∃ r r', Scope.joinAll l = .ok r ∧ Scope.joinAll l' = .ok r' ∧ Scope.pyEq r r' = true := by
  have hne' : l' ≠ [] := fun h => hne (by rw [h] at hp; exact hp.eq_nil)
  obtain ⟨r, h1, h2, h3⟩ := C02_joinAll_is_union hne hl
  obtain ⟨r', h1', h2', h3'⟩ := C02_joinAll_is_union hne' (fun t ht => hl t (hp.mem_iff.mpr ht))
  refine ⟨r, r', h1, h1', (pyEq_iff _ _).mpr ⟨fun x => ?_, fun x => ?_⟩⟩
  · rw [h2, h2']; simp only [hp.mem_iff]
  · rw [h3, h3']; simp only [hp.mem_iff]

/-- C02: the empty iterable raises TypeError (`functools.reduce`). -/
theorem C02_joinAll_empty : Scope.joinAll [] = .error .typeError := rfl

/-! ## C03 -/

/-- C03: `all_pairwise_disjoint` returns (never raises) and decides pairwise disjointness of queries. -/
theorem C03_allPairwiseDisjoint {l : List Scope} (hl : ∀ t ∈ l, Reachable t) :
    ∃ b, Scope.allPairwiseDisjoint l = .ok b ∧
      (b = true ↔ ∀ i j (hi : i < l.length) (hj : j < l.length), i < j →
        ∀ x ∈ l[i].query, x ∉ l[j].query) := by
  cases l with
  | nil => exact ⟨true, rfl, by simp⟩
  | cons s ss =>
    obtain ⟨b, hb, hiff⟩ := pairwiseLoop_ok ss s (C01_reachable_valid (hl s (by simp)))
      (fun t ht => C01_reachable_valid (hl t (by simp [ht])))
    refine ⟨b, hb, ?_⟩
    rw [hiff]
    have : ((∀ t ∈ ss, ∀ x ∈ s.query, x ∉ t.query) ∧ ss.Pairwise (fun s t => ∀ x ∈ s.query, x ∉ t.query)) ↔
        (s :: ss).Pairwise (fun s t => ∀ x ∈ s.query, x ∉ t.query) := by
      rw [List.pairwise_cons]
    rw [this, List.pairwise_iff_getElem]

/-- C03: `all_equal` decides whether every two members are `==`. -/
theorem C03_allEqual (l : List Scope) :
    Scope.allEqual l = true ↔ ∀ a ∈ l, ∀ b ∈ l, Scope.pyEq a b = true := by
  cases l with
  | nil => simp [Scope.allEqual]
  | cons s ss =>
    simp only [Scope.allEqual, List.all_eq_true]
    constructor
    · intro h
      have hs : ∀ a ∈ s :: ss, pyEq s a = true := by
        intro a ha
        rcases List.mem_cons.mp ha with rfl | ha
        · exact (pyEq_iff _ _).mpr ⟨fun _ => Iff.rfl, fun _ => Iff.rfl⟩
        · exact h a ha
      intro a ha b hb
      have h1 := (pyEq_iff _ _).mp (hs a ha)
      have h2 := (pyEq_iff _ _).mp (hs b hb)
      exact (pyEq_iff _ _).mpr ⟨fun x => (h1.1 x).symm.trans (h2.1 x), fun x => (h1.2 x).symm.trans (h2.2 x)⟩
    · intro h t ht
      exact h s (by simp) t (by simp [ht])

/-- C03: `isdisjoint` is exactly disjointness of the query sets. -/
theorem C03_isDisjoint (a b : Scope) :
    Scope.isDisjoint a b = true ↔ ¬ ∃ x, x ∈ a.query ∧ x ∈ b.query := by
  rw [isDisjoint_iff]; push Not; rfl

example : Scope.allPairwiseDisjoint [⟨[0, 1], []⟩, ⟨[2], [0]⟩, ⟨[1], []⟩] = .ok false := by decide +kernel
example : Scope.allPairwiseDisjoint [⟨[0, 1], []⟩, ⟨[2], [0]⟩, ⟨[3], []⟩] = .ok true := by decide +kernel

/-! ## C04 -/

/-- C04: `==` is an equivalence relation. -/
theorem C04_eq_equivalence : Equivalence (fun a b : Scope => Scope.pyEq a b = true) where
  refl a := (pyEq_iff _ _).mpr ⟨fun _ => Iff.rfl, fun _ => Iff.rfl⟩
  symm {a b} h := by
    rw [pyEq_iff] at *
    exact ⟨fun x => (h.1 x).symm, fun x => (h.2 x).symm⟩
  trans {a b c} h1 h2 := by
    rw [pyEq_iff] at *
    exact ⟨fun x => (h1.1 x).trans (h2.1 x), fun x => (h1.2 x).trans (h2.2 x)⟩

/-- C04 is FALSE of the code: `Scope([0,1]) == Scope([1,0])` but their hashes differ. -/
theorem C04_hash_contract_violated :
    ∃ a b, Reachable a ∧ Reachable b ∧ Scope.pyEq a b = true ∧ Scope.pyHash a ≠ Scope.pyHash b :=
  ⟨⟨[0, 1], []⟩, ⟨[1, 0], []⟩, .init (q := .iter [0, 1]) (e := .none) (by decide),
    .init (q := .iter [1, 0]) (e := .none) (by decide), by decide, by decide +kernel⟩

/-- A scope whose tuples are in canonical (strictly increasing) order. -/
def Canonical (s : Scope) : Prop := s.query.Pairwise (· ≤ ·) ∧ s.evidence.Pairwise (· ≤ ·)

/-- C04 (partial): the contract holds for scopes with sorted tuples; missing: unsorted scopes, where
it is false. Every scope returned by `join` (and by `join_all` of two or more scopes) is sorted. -/
theorem C04_hash_contract_partial {a b : Scope} (ha : Reachable a) (hb : Reachable b)
    (ca : Canonical a) (cb : Canonical b) (h : Scope.pyEq a b = true) :
    a = b ∧ Scope.pyHash a = Scope.pyHash b := by
  have ha := C01_reachable_valid ha; have hb := C01_reachable_valid hb
  rw [pyEq_iff] at h
  have hab : a = b := by
    have hq : a.query = b.query :=
      ((List.perm_ext_iff_of_nodup ha.query_nodup hb.query_nodup).mpr h.1).eq_of_pairwise
        (fun _ _ _ _ h1 h2 => by omega) ca.1 cb.1
    have he : a.evidence = b.evidence :=
      ((List.perm_ext_iff_of_nodup ha.evidence_nodup hb.evidence_nodup).mpr h.2).eq_of_pairwise
        (fun _ _ _ _ h1 h2 => by omega) ca.2 cb.2
    cases a; cases b; simp_all
  exact ⟨hab, by rw [hab]⟩

/-- C04: results of `join` are in canonical order, so the partial contract applies to them. -/
theorem C04_join_canonical {a b s : Scope} (h : Scope.join a b = .ok s) : Canonical s := by
  obtain ⟨rfl, _⟩ := join_ok_iff.mp h
  exact ⟨sorted_sortedSet _, sorted_sortedSet _⟩

example : Canonical ⟨[0, 3, 7], [1, 2]⟩ := by constructor <;> decide

end Verif.Scope

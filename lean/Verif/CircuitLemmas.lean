import Verif.Circuit
import Verif.ScopeProps
import Mathlib.Tactic.Ring
import Mathlib.Data.List.OfFn
import Mathlib.Algebra.BigOperators.Fin

/-! Helper lemmas about `Circuit.lean`. -/

namespace Verif
namespace Circ

/-! ### list concatenation by offsets -/

theorem flatten_getElem? {α : Type*} (ls : List (List α)) (i j : ℕ) (hi : i < ls.length)
    (hj : j < (ls[i]).length) :
    ls.flatten[((ls.map List.length).take i).sum + j]? = (ls[i])[j]? := by
  induction ls generalizing i with
  | nil => simp at hi
  | cons l ls ih =>
    cases i with
    | zero => simp at hj ⊢; rw [List.getElem?_append_left hj]
    | succ i =>
      simp at hi hj ⊢
      rw [List.getElem?_append_right (by omega)]
      rw [← ih i hi hj]; congr 1; omega

theorem exists_flatten_index {α : Type*} (ls : List (List α)) (f : ℕ) (hf : f < ls.flatten.length) :
    ∃ i j, ∃ hi : i < ls.length, j < (ls[i]).length ∧ f = ((ls.map List.length).take i).sum + j := by
  induction ls generalizing f with
  | nil => simp at hf
  | cons l ls ih =>
    by_cases h : f < l.length
    · exact ⟨0, f, by simp, by simpa using h, by simp⟩
    · simp only [List.flatten_cons, List.length_append] at hf
      obtain ⟨i, j, hi, hj, he⟩ := ih (f - l.length) (by omega)
      refine ⟨i + 1, j, by simpa using hi, by simpa using hj, ?_⟩
      simp only [List.map_cons, List.take_succ_cons, List.sum_cons]
      omega

theorem catCh_offset (l : List (ℕ × (ℕ → LogV))) (i k : ℕ) (hi : i < l.length) (hk : k < (l[i]).1) :
    catCh l (((l.map Prod.fst).take i).sum + k) = (l[i]).2 k := by
  induction l generalizing i with
  | nil => simp at hi
  | cons a l ih =>
    obtain ⟨n, g⟩ := a
    cases i with
    | zero => simp at hk ⊢; simp [catCh, hk]
    | succ i =>
      simp at hi hk ⊢
      rw [catCh, if_neg (by omega), ← ih i hi hk]; congr 1; omega

theorem exists_catCh_index (l : List ℕ) (ch : ℕ) (h : ch < l.sum) :
    ∃ i k, ∃ hi : i < l.length, k < l[i] ∧ ch = (l.take i).sum + k := by
  induction l generalizing ch with
  | nil => simp at h
  | cons a l ih =>
    by_cases h' : ch < a
    · exact ⟨0, ch, by simp, by simpa using h', by simp⟩
    · obtain ⟨i, k, hi, hk, he⟩ := ih (ch - a) (by simp at h; omega)
      refine ⟨i + 1, k, by simpa using hi, by simpa using hk, ?_⟩
      simp only [List.take_succ_cons, List.sum_cons]; omega

/-! ### shapes -/

theorem den_length (c : Circ) : (den c).length = F c := by
  induction c with
  | leaf q C R d => simp [den, F]
  | cat1 n cs ih => simp [den, F, List.length_flatten, List.map_ofFn, Function.comp_def, ih]
  | cat2 n cs ih =>
    by_cases h : 0 < n
    · simp [den, F, h, ih]
    · simp [den, F, h]
  | prod c ih => simp [den, F]
  | sum c Co R θ ih => simp [den, F, ih]

theorem check1_ok {l : List Circ} (h : check1 l = .ok ()) :
    (∀ a ∈ l, ∀ b ∈ l, a.C = b.C) ∧ Scope.allPairwiseDisjoint (l.map scope) = .ok true ∧ l ≠ [] ∧
      ∃ s, Scope.joinAll (l.map scope) = .ok s := by
  unfold check1 at h
  simp only [bind, Except.bind, pure, Except.pure, throw, throwThe, MonadExceptOf.throw] at h
  split at h
  · simp at h
  rename_i hC
  split at h
  · simp at h
  rename_i b hb
  cases b
  · simp at h
  simp only [Bool.not_true, Bool.false_eq_true, if_false] at h
  split at h
  · simp at h
  rename_i s hs
  have hne : l ≠ [] := by
    rintro rfl; simp [Scope.joinAll] at hs
  refine ⟨?_, hb, hne, s, hs⟩
  simp at hC
  intro a ha b hb
  rw [hC a ha, hC b hb]

theorem check2_ok {l : List Circ} (h : check2 l = .ok ()) :
    (∀ a ∈ l, ∀ b ∈ l, a.F = b.F) ∧ Scope.allEqual (l.map scope) = true ∧ l ≠ [] := by
  unfold check2 at h
  simp only [bind, Except.bind, pure, Except.pure, throw, throwThe, MonadExceptOf.throw] at h
  split at h
  · simp at h
  rename_i hC
  split at h
  · simp at h
  rename_i hb
  split at h
  · simp at h
  rename_i hne
  refine ⟨?_, by simpa using hb, by simpa using hne⟩
  simp at hC
  intro a ha b hb
  rw [hC a ha, hC b hb]

theorem check1_congr {l l' : List Circ} (h1 : l.map C = l'.map C) (h2 : l.map scope = l'.map scope) :
    check1 l = check1 l' := by
  have e : ∀ (l : List Circ) a, l.all (fun m => m.C == a) = (l.map C).all (· == a) := by
    intro l a; rw [List.all_map]; rfl
  unfold check1
  rw [e, e, ← List.head?_map, ← List.head?_map, h1, h2]

theorem check2_congr {l l' : List Circ} (h1 : l.map F = l'.map F) (h2 : l.map scope = l'.map scope) :
    check2 l = check2 l' := by
  have e : ∀ (l : List Circ) a, l.all (fun m => m.F == a) = (l.map F).all (· == a) := by
    intro l a; rw [List.all_map]; rfl
  have e2 : l.isEmpty = l'.isEmpty := by
    have := congrArg List.isEmpty h1
    simpa using this
  unfold check2
  rw [e, e, ← List.head?_map, ← List.head?_map, h1, h2, e2]

theorem cat1_C {n : ℕ} {cs : Fin n → Circ} (h : check1 (List.ofFn cs) = .ok ()) (i : Fin n) :
    C (cs i) = C (cat1 n cs) := by
  have hn : 0 < n := i.pos
  obtain ⟨hC, -⟩ := check1_ok h
  simp only [C, hn, dif_pos]
  exact hC _ (by simp) _ (by simp)

theorem cat2_F {n : ℕ} {cs : Fin n → Circ} (h : check2 (List.ofFn cs) = .ok ()) (i : Fin n) :
    F (cs i) = F (cat2 n cs) := by
  have hn : 0 < n := i.pos
  obtain ⟨hC, -⟩ := check2_ok h
  simp only [F, hn, dif_pos]
  exact hC _ (by simp) _ (by simp)

theorem featAt_eq {l : List Feat} {f : ℕ} (h : f < l.length) (x : Row) (r ch : ℕ) :
    featAt l f x r ch = (l[f]).val x r ch := by
  simp [featAt, h]

/-! ### tensor entries, module by module -/

theorem featAt_leaf {q : List Var} {C R : ℕ} {d} {f : ℕ} {v : Var} (h : q[f]? = some v) (x : Row) (r ch : ℕ) :
    featAt (den (leaf q C R d)) f x r ch = match x v with
      | none => 0
      | some t => d f ch (bc R r) t := by
  simp only [featAt, den, List.getElem?_mapIdx, h, Option.map_some]
  cases x v <;> rfl

/-- number of features of the first `i` inputs -/
def offF {n : ℕ} (cs : Fin n → Circ) (i : ℕ) : ℕ := ((List.ofFn fun k => F (cs k)).take i).sum
/-- number of channels of the first `i` inputs -/
def offC {n : ℕ} (cs : Fin n → Circ) (i : ℕ) : ℕ := ((List.ofFn fun k => C (cs k)).take i).sum

theorem featAt_cat1 {n : ℕ} {cs : Fin n → Circ} (i : Fin n) {j : ℕ} (hj : j < F (cs i)) (x : Row) (r ch : ℕ) :
    featAt (den (cat1 n cs)) (offF cs i + j) x r ch = featAt (den (cs i)) j x r ch := by
  have key := flatten_getElem? (List.ofFn fun i : Fin n => den (cs i)) i j (by simp)
    (by simpa [den_length] using hj)
  simp only [List.map_ofFn, Function.comp_def, den_length, List.getElem_ofFn, Fin.eta] at key
  unfold featAt offF
  rw [den, key]

theorem exists_cat1_index {n : ℕ} {cs : Fin n → Circ} {f : ℕ} (hf : f < F (cat1 n cs)) :
    ∃ (i : Fin n) (j : ℕ), j < F (cs i) ∧ f = offF cs i + j := by
  obtain ⟨i, k, hi, hk, he⟩ := exists_catCh_index (List.ofFn fun k => F (cs k)) f (by simpa [F] using hf)
  simp at hi hk
  exact ⟨⟨i, hi⟩, k, hk, he⟩

theorem exists_cat2_index {n : ℕ} {cs : Fin n → Circ} {ch : ℕ} (hf : ch < C (cat2 n cs)) :
    ∃ (i : Fin n) (k : ℕ), k < C (cs i) ∧ ch = offC cs i + k := by
  obtain ⟨i, k, hi, hk, he⟩ := exists_catCh_index (List.ofFn fun k => C (cs k)) ch (by simpa [C] using hf)
  simp at hi hk
  exact ⟨⟨i, hi⟩, k, hk, he⟩

theorem featAt_cat2 {n : ℕ} {cs : Fin n → Circ} (i : Fin n) {f k : ℕ} (hf : f < F (cat2 n cs))
    (hk : k < C (cs i)) (x : Row) (r : ℕ) :
    featAt (den (cat2 n cs)) f x r (offC cs i + k) = featAt (den (cs i)) f x r k := by
  have hn : 0 < n := i.pos
  rw [featAt_eq (by rw [den_length]; exact hf)]
  simp only [den, hn, dif_pos, List.getElem_mapIdx]
  have key := catCh_offset (List.ofFn fun i : Fin n => (C (cs i), fun k => featAt (den (cs i)) f x r k)) i k
    (by simp) (by simpa using hk)
  simp only [List.map_ofFn, Function.comp_def, List.getElem_ofFn, Fin.eta] at key
  exact key

theorem list_sum_map_eq_range {α : Type*} (l : List α) (g : α → LogV) (g' : ℕ → LogV)
    (h : ∀ i (hi : i < l.length), g l[i] = g' i) : (l.map g).sum = ∑ i ∈ Finset.range l.length, g' i := by
  induction l generalizing g' with
  | nil => simp
  | cons a l ih =>
    rw [List.map_cons, List.sum_cons, List.length_cons, Finset.sum_range_succ']
    rw [ih (fun i => g' (i + 1)) (fun i hi => h (i + 1) (by simpa using hi))]
    have := h 0 (by simp)
    simp at this
    rw [this, add_comm]

theorem featAt_prod (c : Circ) (x : Row) (r ch : ℕ) :
    featAt (den (prod c)) 0 x r ch = ∑ f ∈ Finset.range (F c), featAt (den c) f x r ch := by
  simp only [featAt, den, List.getElem?_cons_zero]
  rw [← den_length c]
  refine list_sum_map_eq_range _ _ _ fun i hi => ?_
  simp [hi]

theorem featAt_sum {c : Circ} {Co R : ℕ} {θ} {f : ℕ} (hf : f < F c) (x : Row) (r co : ℕ) :
    featAt (den (sum c Co R θ)) f x r co =
      lse (C c) fun ci => featAt (den c) f x r ci + logSoftmax (C c) (fun i => θ f i co (bc R r)) ci := by
  have h1 : f < (den c).length := by rw [den_length]; exact hf
  simp [featAt, den, h1]

theorem expL_featAt_sum {c : Circ} {Co R : ℕ} {θ} {f : ℕ} (hf : f < F c) (x : Row) (r co : ℕ) :
    expL (featAt (den (sum c Co R θ)) f x r co) =
      ∑ ci ∈ Finset.range (C c), weight c θ f ci co (bc R r) * expL (featAt (den c) f x r ci) := by
  rw [featAt_sum hf, expL_lse]
  refine Finset.sum_congr rfl fun ci _ => ?_
  rw [expL_add, expL_logSoftmax_eq_softmax, mul_comm]; rfl

theorem expL_featAt_prod (c : Circ) (x : Row) (r ch : ℕ) :
    expL (featAt (den (prod c)) 0 x r ch) = ∏ f ∈ Finset.range (F c), expL (featAt (den c) f x r ch) := by
  rw [featAt_prod, expL_sum]

/-! ### repetitions -/

theorem repIn_of_tensorR {c : Circ} {T r : ℕ} (h : tensorR c = some T) (hr : T = 1 ∨ r < T) : RepIn r c := by
  induction c generalizing T with
  | leaf q C R d => simp [tensorR] at h; subst h; exact hr
  | cat1 n cs ih =>
    simp only [tensorR] at h
    split at h
    · split at h
      · rename_i hn hall
        intro i
        exact ih i (hall i |>.trans h) hr
      · simp at h
    · simp at h
  | cat2 n cs ih =>
    simp only [tensorR] at h
    split at h
    · split at h
      · rename_i hn hall
        intro i
        exact ih i (hall i |>.trans h) hr
      · simp at h
    · simp at h
  | prod c ih => exact ih h hr
  | sum c Co R θ ih =>
    simp only [tensorR] at h
    split at h
    · simp at h
    rename_i T' hT'
    split at h
    · simp at h; subst h; rename_i e; subst e; exact ⟨ih hT' hr, hr⟩
    split at h
    · simp at h; subst h; rename_i e; subst e; exact ⟨ih hT' (.inl rfl), hr⟩
    split at h
    · simp at h; subst h; rename_i e; subst e; exact ⟨ih hT' hr, .inl rfl⟩
    · simp at h

/-! ### scopes -/

theorem mem_foldr_union (l : List (Finset Var)) (v : Var) : v ∈ l.foldr (· ∪ ·) ∅ ↔ ∃ s ∈ l, v ∈ s := by
  induction l with
  | nil => simp
  | cons a l ih => simp [ih]

theorem scope_cat1 {n : ℕ} {cs : Fin n → Circ} {s : Scope}
    (h : Scope.joinAll ((List.ofFn cs).map scope) = .ok s) : scope (cat1 n cs) = s := by
  rw [List.map_ofFn] at h
  simp only [scope]
  have h' : Scope.joinAll (List.ofFn fun i => scope (cs i)) = .ok s := h
  rw [h']

theorem map_scope_mapIdx (l : List Feat) (k : ℕ → Feat → Feat) (h : ∀ i a, (k i a).scope = a.scope) :
    (l.mapIdx k).map Feat.scope = l.map Feat.scope := by
  apply List.ext_getElem
  · simp
  · intro i h1 h2; simp [h]

theorem reachable_of_valid {s : Scope} (h : Scope.Valid s) : Scope.Reachable s :=
  .init (q := .iter s.query) (e := .iter s.evidence) ((Scope.mk?_ok_iff _ _ _).2 ⟨rfl, h⟩)

theorem pairwise_scope_iff (l : List Feat) :
    l.Pairwise (fun u w => Disjoint u.scope w.scope) ↔ (l.map Feat.scope).Pairwise Disjoint := by
  rw [List.pairwise_map]

theorem exists_scope_iff (l : List Feat) (v : Var) :
    (∃ u ∈ l, v ∈ u.scope) ↔ ∃ s ∈ l.map Feat.scope, v ∈ s := by simp

theorem map_scope_sum (c : Circ) (Co R : ℕ) (θ) :
    (den (sum c Co R θ)).map Feat.scope = (den c).map Feat.scope := by
  rw [den]; exact map_scope_mapIdx _ _ fun _ _ => rfl

theorem map_scope_cat2 {n : ℕ} (cs : Fin n → Circ) (h : 0 < n) :
    (den (cat2 n cs)).map Feat.scope = (den (cs ⟨0, h⟩)).map Feat.scope := by
  simp only [den, h, dif_pos]; exact map_scope_mapIdx _ _ fun _ _ => rfl

theorem Accepted.leaf_valid {q C R d} (h : Accepted (leaf q C R d)) : Scope.Valid ⟨q, []⟩ := by
  simp only [Accepted, mkLeaf, bind, Except.bind] at h
  rcases hm : Scope.mk? q [] with e | s
  · rw [hm] at h; simp at h
  · exact ((Scope.mk?_ok_iff _ _ _).1 hm).2

/-- A module's scope is valid and unconditional, its query is the union of its features' scopes, and these
are disjoint. -/
theorem scope_facts {c : Circ} (h : Accepted c) :
    Scope.Valid (scope c) ∧ (scope c).evidence = [] ∧ (∀ v, v ∈ (scope c).query ↔ ∃ u ∈ den c, v ∈ u.scope) ∧
      (den c).Pairwise (fun u w => Disjoint u.scope w.scope) := by
  induction c with
  | leaf q C R d =>
    have hv := h.leaf_valid
    refine ⟨hv, rfl, ?_, ?_⟩
    · intro v
      simp only [scope, den, List.mem_mapIdx]
      constructor
      · intro hm
        obtain ⟨i, hi, rfl⟩ := List.mem_iff_getElem.1 hm
        exact ⟨_, ⟨i, hi, rfl⟩, by simp⟩
      · rintro ⟨_, ⟨i, hi, rfl⟩, hm⟩
        simp at hm; subst hm; simp
    · rw [den, List.pairwise_iff_getElem]
      intro i j hi hj hij
      simp only [List.getElem_mapIdx]
      rw [Finset.disjoint_singleton]
      intro e
      have := hv.query_nodup
      simp at hi hj
      exact absurd ((List.Nodup.getElem_inj_iff this).1 e) (by omega)
  | cat1 n cs ih =>
    obtain ⟨hacc, hck⟩ := h
    obtain ⟨-, hdis, hne, s, hs⟩ := check1_ok hck
    have hval : ∀ t ∈ (List.ofFn cs).map scope, Scope.Valid t := by
      intro t ht
      simp only [List.map_ofFn, List.mem_ofFn, Function.comp] at ht
      obtain ⟨i, rfl⟩ := ht
      exact (ih i (hacc i)).1
    obtain ⟨s', hs', hsv, hq, he⟩ := Scope.joinAll_ok _ (by simpa using hne) hval
    obtain rfl : s' = s := by rw [hs] at hs'; simpa using hs'.symm
    rw [scope_cat1 hs]
    refine ⟨hsv, ?_, ?_, ?_⟩
    · apply List.eq_nil_iff_forall_not_mem.2
      intro x hx
      obtain ⟨⟨t, ht, hxt⟩, -⟩ := (he x).1 hx
      simp only [List.map_ofFn, List.mem_ofFn, Function.comp] at ht
      obtain ⟨i, rfl⟩ := ht
      rw [(ih i (hacc i)).2.1] at hxt
      simp at hxt
    · intro v
      rw [hq v]
      simp only [den, List.mem_flatten, List.mem_ofFn]
      constructor
      · rintro ⟨t, ht, hv⟩
        simp only [List.map_ofFn, List.mem_ofFn, Function.comp] at ht
        obtain ⟨i, rfl⟩ := ht
        obtain ⟨u, hu, hvu⟩ := ((ih i (hacc i)).2.2.1 v).1 hv
        exact ⟨u, ⟨_, ⟨i, rfl⟩, hu⟩, hvu⟩
      · rintro ⟨u, ⟨_, ⟨i, rfl⟩, hu⟩, hvu⟩
        exact ⟨scope (cs i), by simp [List.map_ofFn], ((ih i (hacc i)).2.2.1 v).2 ⟨u, hu, hvu⟩⟩
    · rw [den, List.pairwise_flatten]
      refine ⟨?_, ?_⟩
      · intro l hl
        simp only [List.mem_ofFn] at hl
        obtain ⟨i, rfl⟩ := hl
        exact (ih i (hacc i)).2.2.2
      · obtain ⟨b, hb, hiff⟩ := Scope.C03_allPairwiseDisjoint (l := (List.ofFn cs).map scope)
          (fun t ht => reachable_of_valid (hval t ht))
        obtain rfl : b = true := by rw [hb] at hdis; simpa using hdis
        have hp := hiff.1 rfl
        rw [List.pairwise_iff_getElem]
        intro i j hi hj hij u hu w hw
        simp only [List.getElem_ofFn] at hu hw
        simp at hi hj
        rw [Finset.disjoint_left]
        intro v hvu hvw
        have h1 := ((ih ⟨i, hi⟩ (hacc _)).2.2.1 v).2 ⟨u, hu, hvu⟩
        have h2 := ((ih ⟨j, hj⟩ (hacc _)).2.2.1 v).2 ⟨w, hw, hvw⟩
        exact hp i j (by simpa using hi) (by simpa using hj) hij v (by simpa using h1) (by simpa using h2)
  | cat2 n cs ih =>
    obtain ⟨hacc, hck⟩ := h
    obtain ⟨-, hdis, hne⟩ := check2_ok hck
    have hn : 0 < n := by
      rcases Nat.eq_zero_or_pos n with rfl | h
      · simp at hne
      · exact h
    have := ih ⟨0, hn⟩ (hacc _)
    rw [pairwise_scope_iff, map_scope_cat2 cs hn, ← pairwise_scope_iff]
    simp only [exists_scope_iff] at this ⊢
    rw [map_scope_cat2 cs hn]
    simpa only [scope, hn, dif_pos] using this
  | prod c ih =>
    obtain ⟨h1, h2, h3, h4⟩ := ih h
    refine ⟨h1, h2, ?_, by simp [den]⟩
    intro v
    simp only [scope, h3, den, List.mem_singleton, exists_eq_left, mem_foldr_union]
    simp
  | sum c Co R θ ih =>
    have := ih h.1
    rw [pairwise_scope_iff, map_scope_sum, ← pairwise_scope_iff]
    simp only [exists_scope_iff] at this ⊢
    rw [map_scope_sum]
    simpa only [scope] using this

theorem bc_lt {R r : ℕ} (h : R = 1 ∨ r < R) : bc R r < R := by
  unfold bc; split <;> omega

end Circ
end Verif

import Verif.Marginalize
import Verif.CircuitProps
import Mathlib.Data.List.Forall2
import Mathlib.Data.List.ReduceOption
import Mathlib.Data.List.GetD

/-! # Property C12: structural `marginalize` agrees with NaN evaluation -/

open MeasureTheory

namespace Verif
namespace Circ

/-! ## Specification -/

/-- The row with the columns of `M` set to NaN. -/
def nanOut (M : List Var) (x : Row) : Row := fun v => if v ∈ M then none else x v

/-- No leaf of the circuit has an empty scope. -/
def LeavesNonempty : Circ → Prop
  | leaf q _ _ _ => q ≠ []
  | cat1 _ cs => ∀ i, LeavesNonempty (cs i)
  | cat2 _ cs => ∀ i, LeavesNonempty (cs i)
  | prod c => LeavesNonempty c
  | sum c _ _ _ => LeavesNonempty c

/-- Feature `u'` of the result is feature `u` of the original with `M` integrated out by NaN:
its scope loses `M`; its values, for repetitions satisfying `P` and channels below `N`, are those of `u`
on the NaN-ed row. -/
def FeatMarg (M : List Var) (P : ℕ → Prop) (N : ℕ) (u u' : Feat) : Prop :=
  u'.scope = u.scope \ M.toFinset ∧ ∀ x r, P r → ∀ ch < N, u'.val x r ch = u.val (nanOut M x) r ch

/-- The features that keep at least one variable, in order. -/
noncomputable def surviving (M : List Var) (c : Circ) : List Feat :=
  (den c).filter fun u => !(u.scope ⊆ M.toFinset)

/-! ## Proof -/

theorem FeatMarg.mono {M P N u u'} {P' : ℕ → Prop} {N'} (h : FeatMarg M P N u u') (hP : ∀ r, P' r → P r)
    (hN : N' ≤ N) : FeatMarg M P' N' u u' :=
  ⟨h.1, fun x r hr ch hch => h.2 x r (hP r hr) ch (by omega)⟩

theorem filter_eq_map_range {α : Type*} [Inhabited α] (l : List α) (p : α → Bool) :
    l.filter p = ((List.range l.length).filter fun i => p (l.getD i default)).map fun i => l.getD i default := by
  induction l using List.reverseRecOn with
  | nil => simp
  | append_singleton l a ih =>
    rw [List.length_append, List.length_singleton, List.range_succ, List.filter_append, List.filter_append,
      List.map_append, ih]
    congr 1
    · have : ∀ i ∈ List.range l.length, (l ++ [a]).getD i default = l.getD i default := by
        intro i hi
        rw [List.getD_append _ _ _ _ (by simpa using hi)]
      have e : (List.range l.length).filter (fun i => p ((l ++ [a]).getD i default)) =
          (List.range l.length).filter (fun i => p (l.getD i default)) :=
        List.filter_congr (fun i hi => by rw [this i hi])
      rw [e]
      exact List.map_congr_left fun i hi => by
        rw [this i (List.mem_of_mem_filter hi)]
    · by_cases h : p a <;> simp [h]

instance : Inhabited Feat := ⟨⟨∅, fun _ _ _ => ⊥⟩⟩

theorem getD_den {c : Circ} {f : ℕ} (hf : f < F c) :
    ((den c).getD f default).scope = fscope c f ∧
      ∀ x r ch, ((den c).getD f default).val x r ch = featAt (den c) f x r ch := by
  have h : f < (den c).length := by rwa [den_length]
  simp [fscope, featAt, h]

theorem surviving_eq (M : List Var) (c : Circ) :
    surviving M c = (keepFeat M c).map fun f => (den c).getD f default := by
  unfold surviving keepFeat
  rw [filter_eq_map_range, den_length]
  congr 1
  refine List.filter_congr fun f hf => ?_
  rw [(getD_den (by simpa using hf)).1]

theorem keepFeat_lt {M : List Var} {c : Circ} {f : ℕ} (h : f ∈ keepFeat M c) : f < F c := by
  simpa using List.mem_of_mem_filter h

theorem keepFeat_getD {M : List Var} {c : Circ} {k : ℕ} (h : k < (keepFeat M c).length) :
    (keepFeat M c).getD k 0 < F c := by
  rw [List.getD_eq_getElem _ _ h]; exact keepFeat_lt (List.getElem_mem h)

/-- indexed form of the relation between result and original -/
theorem forall₂_surviving {M : List Var} {c c' : Circ} {P : ℕ → Prop} {N : ℕ} :
    List.Forall₂ (FeatMarg M P N) (surviving M c) (den c') ↔
      F c' = (keepFeat M c).length ∧ ∀ k < F c',
        fscope c' k = fscope c ((keepFeat M c).getD k 0) \ M.toFinset ∧
        ∀ x r, P r → ∀ ch < N,
          featAt (den c') k x r ch = featAt (den c) ((keepFeat M c).getD k 0) (nanOut M x) r ch := by
  rw [List.forall₂_iff_get, surviving_eq]
  simp only [List.length_map, den_length]
  constructor
  · rintro ⟨h1, h2⟩
    refine ⟨h1.symm, fun k hk => ?_⟩
    have hk' : k < (keepFeat M c).length := by omega
    have := h2 k (by omega) hk
    have hd := getD_den (c := c) (keepFeat_getD hk')
    have hd' := getD_den (c := c') hk
    rw [List.getD_eq_getElem _ _ (by rwa [den_length])] at hd'
    simp only [List.get_eq_getElem, List.getElem_map] at this
    rw [List.getD_eq_getElem _ _ hk'] at hd ⊢
    refine ⟨by rw [← hd'.1, ← hd.1]; exact this.1, fun x r hr ch hch => ?_⟩
    rw [← hd'.2, ← hd.2]; exact this.2 x r hr ch hch
  · rintro ⟨h1, h2⟩
    refine ⟨h1.symm, fun k h₁ hk => ?_⟩
    have hk' : k < (keepFeat M c).length := by omega
    have := h2 k hk
    have hd := getD_den (c := c) (keepFeat_getD hk')
    have hd' := getD_den (c := c') hk
    rw [List.getD_eq_getElem _ _ (by rwa [den_length])] at hd'
    simp only [List.get_eq_getElem, List.getElem_map]
    rw [List.getD_eq_getElem _ _ hk'] at hd this
    refine ⟨by rw [hd'.1, hd.1]; exact this.1, fun x r hr ch hch => ?_⟩
    rw [hd'.2, hd.2]; exact this.2 x r hr ch hch

/-- what a returned module satisfies -/
structure Good (M : List Var) (T : ℕ) (c c' : Circ) : Prop where
  acc : Accepted c'
  al : Aligned c'
  fin : FiniteLogits c'
  ne : LeavesNonempty c'
  ch : C c' = C c
  rep : tensorR c' = some T
  feats : List.Forall₂ (FeatMarg M (fun r => RepIn r c) (C c)) (surviving M c) (den c')
  pos : surviving M c ≠ []

/-- postcondition of `marginalize` -/
def Post (M : List Var) (T : ℕ) (c : Circ) : Option Circ → Prop
  | none => surviving M c = []
  | some c' => Good M T c c'

theorem scope_nonempty {c : Circ} (h : Accepted c) (hn : LeavesNonempty c) :
    den c ≠ [] ∧ ∀ u ∈ den c, u.scope.Nonempty := by
  induction c with
  | leaf q C R d =>
    replace hn : q ≠ [] := hn
    refine ⟨by simpa [den] using hn, ?_⟩
    intro u hu
    simp only [den, List.mem_mapIdx] at hu
    obtain ⟨i, hi, rfl⟩ := hu
    simp
  | cat1 n cs ih =>
    obtain ⟨-, -, hne, -⟩ := check1_ok h.2
    have hn0 : 0 < n := by
      rcases Nat.eq_zero_or_pos n with rfl | h
      · simp at hne
      · exact h
    constructor
    · intro e
      simp only [den, List.flatten_eq_nil_iff, List.mem_ofFn] at e
      exact (ih ⟨0, hn0⟩ (h.1 _) (hn _)).1 (e _ ⟨_, rfl⟩)
    · intro u hu
      simp only [den, List.mem_flatten, List.mem_ofFn] at hu
      obtain ⟨_, ⟨i, rfl⟩, hu⟩ := hu
      exact (ih i (h.1 _) (hn _)).2 u hu
  | cat2 n cs ih =>
    obtain ⟨-, -, hne⟩ := check2_ok h.2
    have hn0 : 0 < n := by
      rcases Nat.eq_zero_or_pos n with rfl | h
      · simp at hne
      · exact h
    obtain ⟨h1, h2⟩ := ih ⟨0, hn0⟩ (h.1 _) (hn _)
    simp only [den, hn0, dif_pos]
    refine ⟨by simpa using h1, ?_⟩
    intro u hu
    rw [List.mem_mapIdx] at hu
    obtain ⟨i, hi, rfl⟩ := hu
    exact h2 (_[i]) (List.getElem_mem hi)
  | prod c ih =>
    obtain ⟨h1, h2⟩ := ih h hn
    refine ⟨by simp [den], ?_⟩
    intro u hu
    simp only [den, List.mem_singleton] at hu
    subst hu
    obtain ⟨w, hw⟩ := List.exists_mem_of_ne_nil _ h1
    obtain ⟨v, hv⟩ := h2 w hw
    exact ⟨v, (mem_foldr_union _ _).2 ⟨w.scope, List.mem_map_of_mem hw, hv⟩⟩
  | sum c Co R θ ih =>
    obtain ⟨h1, h2⟩ := ih h.1 hn
    rw [den]
    refine ⟨by simpa using h1, ?_⟩
    intro u hu
    rw [List.mem_mapIdx] at hu
    obtain ⟨i, hi, rfl⟩ := hu
    exact h2 (_[i]) (List.getElem_mem hi)

theorem surviving_nil_iff {M : List Var} {c : Circ} (h : Accepted c) :
    surviving M c = [] ↔ ∀ v ∈ (scope c).query, v ∈ M := by
  simp only [surviving, List.filter_eq_nil_iff]
  simp only [Bool.not_eq_true', decide_eq_false_iff_not, not_not]
  constructor
  · intro hs v hv
    obtain ⟨u, hu, hvu⟩ := ((scope_facts h).2.2.1 v).1 hv
    simpa using hs u hu hvu
  · intro hs u hu v hv
    simpa using hs v (((scope_facts h).2.2.1 v).2 ⟨u, hu, hv⟩)

theorem covers_iff {M : List Var} {s : Scope} : covers M s = true ↔ ∀ v ∈ s.query, v ∈ M := by
  simp [covers]

theorem touches_iff {M : List Var} {s : Scope} : touches M s = true ↔ ∃ v ∈ s.query, v ∈ M := by
  simp [touches]

theorem nanOut_eq {M : List Var} {x : Row} {v : Var} (h : v ∉ M) : nanOut M x v = x v := by
  simp [nanOut, h]

/-- values of a surviving feature that does not touch `M` -/
theorem forall₂_self_of_untouched {M : List Var} {c : Circ} (h : Accepted c) (hal : Aligned c)
    (hn : LeavesNonempty c) (ht : ∀ v ∈ (scope c).query, v ∉ M) (P N) (hN : N ≤ C c) :
    List.Forall₂ (FeatMarg M P N) (surviving M c) (den c) := by
  have hdis : ∀ u ∈ den c, ∀ v ∈ u.scope, v ∉ M := fun u hu v hv =>
    ht v (((scope_facts h).2.2.1 v).2 ⟨u, hu, hv⟩)
  have hs : surviving M c = den c := by
    rw [surviving, List.filter_eq_self]
    intro u hu
    obtain ⟨v, hv⟩ := (scope_nonempty h hn).2 u hu
    simp only [Bool.not_eq_true', decide_eq_false_iff_not]
    intro hsub
    exact hdis u hu v hv (by simpa using hsub hv)
  rw [hs, List.forall₂_same]
  intro u hu
  refine ⟨?_, fun x r _ ch hch => ?_⟩
  · ext v
    simp only [Finset.mem_sdiff, List.mem_toFinset]
    exact ⟨fun hv => ⟨hv, hdis u hu v hv⟩, fun hv => hv.1⟩
  · obtain ⟨f, hf, rfl⟩ := List.mem_iff_getElem.1 hu
    rw [← featAt_eq hf, ← featAt_eq hf]
    rw [den_length] at hf
    refine featAt_local h hal hf (by omega) fun v hv => ?_
    rw [nanOut_eq]
    refine hdis _ (List.getElem_mem (by rwa [den_length])) v ?_
    simpa [fscope, den_length, hf] using hv

theorem good_self {M : List Var} {T : ℕ} {c : Circ} (h : Accepted c) (hal : Aligned c) (hf : FiniteLogits c)
    (hn : LeavesNonempty c) (hT : tensorR c = some T) (ht : touches M (scope c) = false) : Good M T c c := by
  have ht' : ∀ v ∈ (scope c).query, v ∉ M := by
    intro v hv hM
    have := touches_iff.2 ⟨v, hv, hM⟩
    rw [ht] at this; exact absurd this (by simp)
  refine ⟨h, hal, hf, hn, rfl, hT, forall₂_self_of_untouched h hal hn ht' _ _ le_rfl, ?_⟩
  intro hs
  rw [surviving_nil_iff h] at hs
  obtain ⟨h1, h2⟩ := scope_nonempty h hn
  obtain ⟨u, hu⟩ := List.exists_mem_of_ne_nil _ h1
  obtain ⟨v, hv⟩ := h2 u hu
  have := ((scope_facts h).2.2.1 v).2 ⟨u, hu, hv⟩
  exact ht' v this (hs v this)

/-- variables of a good result -/
theorem Good.mem_scope {M T c c'} (g : Good M T c c') (h : Accepted c) (v : Var) :
    v ∈ (scope c').query ↔ v ∈ (scope c).query ∧ v ∉ M := by
  rw [(scope_facts g.acc).2.2.1, (scope_facts h).2.2.1]
  have key := g.feats
  constructor
  · rintro ⟨u', hu', hv⟩
    obtain ⟨k, hk, rfl⟩ := List.mem_iff_getElem.1 hu'
    have hk' : k < (surviving M c).length := by rw [key.length_eq]; exact hk
    have hr := (List.forall₂_iff_get.1 key).2 k hk' hk
    simp only [List.get_eq_getElem] at hr
    rw [hr.1] at hv
    simp only [Finset.mem_sdiff, List.mem_toFinset] at hv
    exact ⟨⟨_, List.mem_of_mem_filter (List.getElem_mem hk'), hv.1⟩, hv.2⟩
  · rintro ⟨⟨u, hu, hv⟩, hM⟩
    have hs : u ∈ surviving M c := by
      rw [surviving, List.mem_filter]
      refine ⟨hu, ?_⟩
      simp only [Bool.not_eq_true', decide_eq_false_iff_not]
      intro hsub
      exact hM (by simpa using hsub hv)
    obtain ⟨k, hk, rfl⟩ := List.mem_iff_getElem.1 hs
    have hk' : k < (den c').length := by rw [← key.length_eq]; exact hk
    have hr := (List.forall₂_iff_get.1 key).2 k hk hk'
    simp only [List.get_eq_getElem] at hr
    exact ⟨_, List.getElem_mem hk', by rw [hr.1]; simp [hv, hM]⟩

/-! ### constructor acceptance -/

theorem check1_of {l : List Circ} (hne : l ≠ []) {K : ℕ} (hC : ∀ m ∈ l, C m = K)
    (hv : ∀ m ∈ l, Scope.Valid (scope m))
    (hd : l.Pairwise fun a b => ∀ v, v ∈ (scope a).query → v ∉ (scope b).query) : check1 l = .ok () := by
  have hval : ∀ t ∈ l.map scope, Scope.Valid t := by
    intro t ht; obtain ⟨m, hm, rfl⟩ := List.mem_map.1 ht; exact hv m hm
  obtain ⟨b, hb, hiff⟩ := Scope.C03_allPairwiseDisjoint (l := l.map scope)
    (fun t ht => reachable_of_valid (hval t ht))
  obtain rfl : b = true := hiff.2 (by
    rw [List.pairwise_iff_getElem] at hd
    intro i j hi hj hij v h1 h2
    simp at hi hj h1 h2
    exact hd i j hi hj hij v h1 h2)
  obtain ⟨s, hs, -⟩ := Scope.joinAll_ok (l.map scope) (by simpa using hne) hval
  have hall : (l.all fun m => m.C == (l.head?.map C).getD 0) = true := by
    rw [List.all_eq_true]
    intro m hm
    obtain ⟨a, l', rfl⟩ := List.exists_cons_of_ne_nil hne
    simp [hC m hm, hC a (by simp)]
  unfold check1
  simp only [hall, hb, hs, bind, Except.bind, pure, Except.pure]
  rfl

theorem check2_of {l : List Circ} (hne : l ≠ []) {K : ℕ} (hF : ∀ m ∈ l, F m = K)
    (he : ∀ m ∈ l, (scope m).evidence = [])
    (hq : ∀ a ∈ l, ∀ b ∈ l, ∀ v, v ∈ (scope a).query ↔ v ∈ (scope b).query) : check2 l = .ok () := by
  have hall : (l.all fun m => m.F == (l.head?.map F).getD 0) = true := by
    rw [List.all_eq_true]
    intro m hm
    obtain ⟨a, l', rfl⟩ := List.exists_cons_of_ne_nil hne
    simp [hF m hm, hF a (by simp)]
  have heq : Scope.allEqual (l.map scope) = true := by
    rw [Scope.C03_allEqual]
    intro a ha b hb
    obtain ⟨a, ha', rfl⟩ := List.mem_map.1 ha
    obtain ⟨b, hb', rfl⟩ := List.mem_map.1 hb
    rw [Scope.pyEq_iff]
    exact ⟨hq a ha' b hb', by simp [he a ha', he b hb']⟩
  have hemp : l.isEmpty = false := by simpa using hne
  unfold check2
  simp only [hall, heq, hemp, bind, Except.bind, pure, Except.pure]
  rfl

/-! ### the cases -/

theorem collect_ok (L : List Circ) (O : List (Option Circ)) {M : List Var} {prune : Bool}
    (h : List.Forall₂ (fun c o => marg M prune c = .ok o) L O) :
    collect (L.map (marg M prune)) = .ok O.reduceOption := by
  induction h with
  | nil => rfl
  | @cons c o L O h _ ih =>
    simp only [List.map_cons, collect, h, ih, bind, Except.bind, pure, Except.pure]
    cases o <;> simp [List.reduceOption]

theorem keepIdx_eq (M : List Var) (q : List Var) (C R : ℕ) (d) :
    keepIdx M q = keepFeat M (leaf q C R d) := by
  unfold keepIdx keepFeat
  refine List.filter_congr fun f hf => ?_
  have hf' : f < q.length := by simpa using hf
  rw [fscope_leaf (v := q[f]) (by simp [hf'])]
  rw [List.getD_eq_getElem _ _ hf']; simp

theorem filter_eq_keepIdx (M : List Var) (q : List Var) :
    (q.filter fun v => !M.contains v) = (keepIdx M q).map fun i => q.getD i 0 :=
  filter_eq_map_range q _

theorem post_leaf (M : List Var) (q : List Var) (C R : ℕ) (d) (h : Accepted (leaf q C R d)) :
    Post M R (leaf q C R d) (margLeaf M q C R d) := by
  unfold margLeaf
  simp only
  split
  · rename_i he
    show surviving M _ = []
    rw [surviving_nil_iff h]
    intro v hv
    rw [List.isEmpty_iff, List.filter_eq_nil_iff] at he
    simpa using he v hv
  · rename_i he
    have hv := h.leaf_valid
    have hlen : (q.filter fun v => !M.contains v).length = (keepIdx M q).length := by
      rw [filter_eq_keepIdx]; simp
    refine ⟨?_, trivial, trivial, by simpa [LeavesNonempty] using he, rfl, rfl, ?_, ?_⟩
    · have : Scope.Valid ⟨q.filter fun v => !M.contains v, []⟩ := by
        exact ⟨fun v hm => hv.query_nonneg v (List.mem_of_mem_filter hm), by simp, hv.query_nodup.filter _,
          by simp, by simp, by simp⟩
      simp only [Accepted, mkLeaf, (Scope.mk?_ok_iff _ _ _).2 ⟨rfl, this⟩]
      rfl
    · rw [forall₂_surviving]
      refine ⟨by rw [← keepIdx_eq]; exact hlen, fun k hk => ?_⟩
      rw [← keepIdx_eq]
      have hk1 : k < (keepIdx M q).length := by rw [← hlen]; exact hk
      have hi : (keepIdx M q).getD k 0 < q.length := by
        rw [keepIdx_eq M q C R d] at hk1 ⊢; exact keepFeat_getD hk1
      set i := (keepIdx M q).getD k 0 with hidef
      have hq' : (q.filter fun v => !M.contains v)[k]? = some q[i] := by
        rw [filter_eq_keepIdx, List.getElem?_map, List.getElem?_eq_getElem hk1, Option.map_some]
        have e : (keepIdx M q)[k] = i := by rw [hidef, List.getD_eq_getElem _ _ hk1]
        simp only [e]
        rw [List.getD_eq_getElem _ _ hi]
      have hnM : q[i] ∉ M := by
        have := List.mem_of_getElem? hq'
        simpa using (List.mem_filter.1 this).2
      refine ⟨?_, ?_⟩
      · rw [fscope_leaf hq', fscope_leaf (v := q[i]) (by simp [hi])]
        ext v
        simp only [Finset.mem_singleton, Finset.mem_sdiff, List.mem_toFinset]
        constructor
        · rintro rfl; exact ⟨rfl, hnM⟩
        · exact fun h => h.1
      · intro x r _ ch _
        rw [featAt_leaf hq', featAt_leaf (v := q[i]) (by simp [hi]), nanOut_eq hnM]
    · intro hs
      rw [surviving_nil_iff h] at hs
      apply he
      rw [List.isEmpty_iff, List.filter_eq_nil_iff]
      intro v hv
      simpa using hs v hv


theorem surviving_cat1 (M : List Var) {n : ℕ} (cs : Fin n → Circ) :
    surviving M (cat1 n cs) = ((List.ofFn cs).map (surviving M)).flatten := by
  unfold surviving
  rw [den, List.filter_flatten, List.map_ofFn, List.map_ofFn]
  rfl

theorem den_cat1_get (l : List Circ) : den (cat1 l.length l.get) = (l.map den).flatten := by
  rw [den]
  congr 1
  conv_rhs => rw [← List.ofFn_get l, List.map_ofFn]
  rfl

theorem list_facts {M : List Var} {T K : ℕ} {P : ℕ → Prop} {L : List Circ} {O : List (Option Circ)}
    (h : List.Forall₂ (Post M T) L O) (hacc : ∀ c ∈ L, Accepted c) (hC : ∀ c ∈ L, C c = K)
    (hP : ∀ c ∈ L, ∀ r, P r → RepIn r c)
    (hd : L.Pairwise fun a b => ∀ v, v ∈ (scope a).query → v ∉ (scope b).query) :
    (∀ m ∈ O.reduceOption, ∃ c ∈ L, Good M T c m) ∧
    (O.reduceOption.Pairwise fun a b => ∀ v, v ∈ (scope a).query → v ∉ (scope b).query) ∧
    List.Forall₂ (FeatMarg M P K) (L.map (surviving M)).flatten (O.reduceOption.map den).flatten := by
  induction h with
  | nil => simp [List.reduceOption]
  | @cons c o L O h hL ih =>
    rw [List.pairwise_cons] at hd
    obtain ⟨i1, i2, i3⟩ := ih (fun c hc => hacc c (by simp [hc])) (fun c hc => hC c (by simp [hc]))
      (fun c hc => hP c (by simp [hc])) hd.2
    cases o with
    | none =>
      have hs : surviving M c = [] := h
      simp only [List.reduceOption_cons_of_none, List.map_cons, List.flatten_cons, hs, List.nil_append]
      exact ⟨fun m hm => let ⟨c, hc, hg⟩ := i1 m hm; ⟨c, by simp [hc], hg⟩, i2, i3⟩
    | some c' =>
      have hg : Good M T c c' := h
      simp only [List.reduceOption_cons_of_some, List.map_cons, List.flatten_cons]
      refine ⟨?_, ?_, ?_⟩
      · intro m hm
        rcases List.mem_cons.1 hm with rfl | hm
        · exact ⟨c, by simp, hg⟩
        · obtain ⟨c, hc, hg⟩ := i1 m hm
          exact ⟨c, by simp [hc], hg⟩
      · rw [List.pairwise_cons]
        refine ⟨fun m hm v hv hv' => ?_, i2⟩
        obtain ⟨b, hb, hgb⟩ := i1 m hm
        exact hd.1 b hb v ((hg.mem_scope (hacc c (by simp)) v).1 hv).1
          ((hgb.mem_scope (hacc b (by simp [hb])) v).1 hv').1
      · refine List.rel_append ?_ i3
        refine hg.feats.imp fun u u' hu => hu.mono (hP c (by simp)) (by rw [hC c (by simp)])

theorem tensorR_cat1 {n : ℕ} {cs : Fin n → Circ} {T : ℕ} :
    tensorR (cat1 n cs) = some T ↔ 0 < n ∧ ∀ i, tensorR (cs i) = some T := by
  simp only [tensorR]
  split
  · rename_i hn
    split
    · rename_i hall
      exact ⟨fun h => ⟨hn, fun i => (hall i).trans h⟩, fun h => h.2 _⟩
    · rename_i hall
      simp only [reduceCtorEq, false_iff, not_and]
      intro _ h
      exact hall fun i => (h i).trans (h _).symm
  · rename_i hn; simp [hn]

theorem tensorR_cat2 {n : ℕ} {cs : Fin n → Circ} {T : ℕ} :
    tensorR (cat2 n cs) = some T ↔ 0 < n ∧ ∀ i, tensorR (cs i) = some T := by
  rw [← tensorR_cat1]; rfl

theorem forall₂_ofFn {α β : Type*} {R : α → β → Prop} {n : ℕ} {f : Fin n → α} {g : Fin n → β}
    (h : ∀ i, R (f i) (g i)) : List.Forall₂ R (List.ofFn f) (List.ofFn g) := by
  rw [List.forall₂_iff_get]
  refine ⟨by simp, fun i h1 h2 => ?_⟩
  simpa using h _

theorem post_cat1 {M : List Var} {T : ℕ} {prune : Bool} {n : ℕ} {cs : Fin n → Circ} (h : Accepted (cat1 n cs))
    (o : Fin n → Option Circ) (ho : ∀ i, Post M T (cs i) (o i)) :
    ∃ r, finishCat 1 prune (List.ofFn o).reduceOption = .ok r ∧ Post M T (cat1 n cs) r := by
  obtain ⟨hacc, hck⟩ := h
  have h : Accepted (cat1 n cs) := ⟨hacc, hck⟩
  obtain ⟨-, hdis, hne, s, hs⟩ := check1_ok hck
  have hacc' : ∀ c ∈ List.ofFn cs, Accepted c := by
    intro c hc; rw [List.mem_ofFn] at hc; obtain ⟨i, rfl⟩ := hc; exact hacc i
  have hC' : ∀ c ∈ List.ofFn cs, C c = C (cat1 n cs) := by
    intro c hc; rw [List.mem_ofFn] at hc; obtain ⟨i, rfl⟩ := hc; exact cat1_C hck i
  have hP' : ∀ c ∈ List.ofFn cs, ∀ r, RepIn r (cat1 n cs) → RepIn r c := by
    intro c hc; rw [List.mem_ofFn] at hc; obtain ⟨i, rfl⟩ := hc; exact fun r hr => hr i
  have hd : (List.ofFn cs).Pairwise fun a b => ∀ v, v ∈ (scope a).query → v ∉ (scope b).query := by
    obtain ⟨b, hb, hiff⟩ := Scope.C03_allPairwiseDisjoint (l := (List.ofFn cs).map scope)
      (fun t ht => by
        obtain ⟨m, hm, rfl⟩ := List.mem_map.1 ht
        exact reachable_of_valid (scope_facts (hacc' m hm)).1)
    obtain rfl : b = true := by rw [hb] at hdis; simpa using hdis
    rw [List.pairwise_iff_getElem]
    intro i j hi hj hij v h1 h2
    have := hiff.1 rfl i j (by simpa using hi) (by simpa using hj) hij
    simp only [List.getElem_map] at this
    exact this v h1 h2
  obtain ⟨f1, f2, f3⟩ := list_facts (forall₂_ofFn ho) hacc' hC' hP' hd
  rw [← surviving_cat1] at f3
  generalize (List.ofFn o).reduceOption = l at f1 f2 f3
  have hpos : l ≠ [] → surviving M (cat1 n cs) ≠ [] := by
    intro hl hs
    obtain ⟨m, hm⟩ := List.exists_mem_of_ne_nil _ hl
    obtain ⟨c, hc, hg⟩ := f1 m hm
    apply hg.pos
    rw [surviving_cat1, List.flatten_eq_nil_iff] at hs
    exact hs _ (List.mem_map_of_mem hc)
  have hmk : l ≠ [] → mkCat 1 l = .ok (cat1 l.length l.get) ∧ Good M T (cat1 n cs) (cat1 l.length l.get) := by
    intro hl
    have hck' : check1 l = .ok () := by
      refine check1_of hl (K := C (cat1 n cs)) ?_ ?_ f2
      · intro m hm; obtain ⟨c, hc, hg⟩ := f1 m hm; rw [hg.ch, hC' c hc]
      · intro m hm; obtain ⟨c, hc, hg⟩ := f1 m hm; exact (scope_facts hg.acc).1
    have hl0 : 0 < l.length := List.length_pos_iff.2 hl
    have hget : ∀ i, ∃ c ∈ List.ofFn cs, Good M T c (l.get i) := fun i => f1 _ (List.get_mem l i)
    refine ⟨by simp [mkCat, hck', bind, Except.bind, pure, Except.pure], ?_, ?_, ?_, ?_, ?_, ?_, ?_, hpos hl⟩
    · exact ⟨fun i => let ⟨_, _, g⟩ := hget i; g.acc, by rw [List.ofFn_get]; exact hck'⟩
    · exact fun i => let ⟨_, _, g⟩ := hget i; g.al
    · exact fun i => let ⟨_, _, g⟩ := hget i; g.fin
    · exact fun i => let ⟨_, _, g⟩ := hget i; g.ne
    · rw [← cat1_C (by rw [List.ofFn_get]; exact hck') ⟨0, hl0⟩]
      obtain ⟨c, hc, g⟩ := hget ⟨0, hl0⟩
      rw [g.ch, hC' c hc]
    · rw [tensorR_cat1]; exact ⟨hl0, fun i => let ⟨_, _, g⟩ := hget i; g.rep⟩
    · rw [den_cat1_get]; exact f3
  unfold finishCat
  split
  · refine ⟨none, rfl, ?_⟩
    show surviving M (cat1 n cs) = []
    simpa using f3
  · rename_i c'
    split
    · refine ⟨some c', rfl, ?_⟩
      obtain ⟨c, hc, g⟩ := f1 c' (by simp)
      refine ⟨g.acc, g.al, g.fin, g.ne, by rw [g.ch, hC' c hc], g.rep, by simpa using f3, hpos (by simp)⟩
    · obtain ⟨e, g⟩ := hmk (by simp)
      exact ⟨some _, by simp [e, bind, Except.bind, pure, Except.pure], g⟩
  · rename_i h1 h2
    obtain ⟨e, g⟩ := hmk h1
    exact ⟨some _, by simp [e, bind, Except.bind, pure, Except.pure], g⟩

theorem cat2_ofFn {n : ℕ} (cs : Fin n → Circ) :
    cat2 (List.ofFn cs).length (List.ofFn cs).get = cat2 n cs := by
  have key : ∀ (m : ℕ) (h : m = n) (g : Fin m → Circ), (∀ i, g i = cs (Fin.cast h i)) → cat2 m g = cat2 n cs := by
    intro m h g hg
    subst h
    congr 1
    funext i
    exact hg i
  refine key _ (by simp) _ fun i => ?_
  simp only [List.get_eq_getElem, List.getElem_ofFn]
  rfl

theorem scope_map_surviving (M : List Var) (c : Circ) : (surviving M c).map Feat.scope =
    ((den c).map Feat.scope).filter fun s => !(s ⊆ M.toFinset) := by
  rw [surviving, List.filter_map]; rfl

theorem keepFeat_cat2 {M : List Var} {n : ℕ} {cs : Fin n → Circ} (h : Accepted (cat2 n cs))
    (hal : Aligned (cat2 n cs)) (i : Fin n) : keepFeat M (cat2 n cs) = keepFeat M (cs i) := by
  unfold keepFeat
  rw [cat2_F h.2 i]
  refine List.filter_congr fun f _ => ?_
  rw [fscope_cat2 hal.2 i]

theorem C_cat2_lt {n : ℕ} {cs : Fin n → Circ} (i : Fin n) {k : ℕ} (hk : k < C (cs i)) :
    offC cs i + k < C (cat2 n cs) := by
  have h1 : i.val < (List.ofFn fun j => C (cs j)).length := by simp
  have h2 : (List.ofFn fun j => C (cs j)).sum =
      ((List.ofFn fun j => C (cs j)).take i).sum + ((List.ofFn fun j => C (cs j)).drop i).sum := by
    rw [← List.sum_append, List.take_append_drop]
  rw [List.drop_eq_getElem_cons h1] at h2
  simp only [C, offC]
  rw [h2]
  simp
  omega

theorem reduceOption_ofFn_none {α : Type*} {n : ℕ} {o : Fin n → Option α} (h : ∀ i, o i = none) :
    (List.ofFn o).reduceOption = [] := by
  rw [List.eq_nil_iff_forall_not_mem]
  intro a ha
  rw [List.reduceOption_mem_iff, List.mem_ofFn] at ha
  obtain ⟨i, hi⟩ := ha
  rw [h i] at hi
  simp at hi

theorem reduceOption_map_some {α : Type*} (l : List α) : (l.map some).reduceOption = l := by
  induction l with
  | nil => rfl
  | cons a l ih => rw [List.map_cons, List.reduceOption_cons_of_some, ih]

theorem post_cat2 {M : List Var} {T : ℕ} {prune : Bool} {n : ℕ} {cs : Fin n → Circ} (h : Accepted (cat2 n cs))
    (hal : Aligned (cat2 n cs)) (hT : tensorR (cat2 n cs) = some T) (o : Fin n → Option Circ)
    (ho : ∀ i, Post M T (cs i) (o i)) :
    ∃ r, finishCat 2 prune (List.ofFn o).reduceOption = .ok r ∧ Post M T (cat2 n cs) r := by
  have hn : 0 < n := (tensorR_cat2.1 hT).1
  have hsame : ∀ i, (surviving M (cs i) = [] ↔ surviving M (cat2 n cs) = []) := by
    intro i
    have : (surviving M (cs i)).map Feat.scope = (surviving M (cat2 n cs)).map Feat.scope := by
      rw [scope_map_surviving, scope_map_surviving, map_scope_cat2 cs hn, hal.2 i ⟨0, hn⟩]
    rw [← List.map_eq_nil_iff (f := Feat.scope), this, List.map_eq_nil_iff]
  by_cases hs : surviving M (cat2 n cs) = []
  · have hnone : ∀ i, o i = none := by
      intro i
      have := ho i
      rcases hoi : o i with _ | c'
      · rfl
      · rw [hoi] at this
        exact absurd ((hsame i).2 hs) (Good.pos this)
    rw [reduceOption_ofFn_none hnone]
    exact ⟨none, rfl, hs⟩
  · have hsome : ∀ i, ∃ c', o i = some c' ∧ Good M T (cs i) c' := by
      intro i
      have := ho i
      rcases hoi : o i with _ | c'
      · rw [hoi] at this
        exact absurd ((hsame i).1 this) hs
      · rw [hoi] at this
        exact ⟨c', rfl, this⟩
    choose c' hc' hg using hsome
    have hl : (List.ofFn o).reduceOption = List.ofFn c' := by
      have : List.ofFn o = (List.ofFn c').map some := by
        rw [List.map_ofFn]; congr 1; funext i; exact hc' i
      rw [this, reduceOption_map_some]
    rw [hl]
    have hFk : ∀ i, F (c' i) = (keepFeat M (cat2 n cs)).length := by
      intro i; rw [keepFeat_cat2 h hal i]; exact (forall₂_surviving.1 (hg i).feats).1
    have hne : List.ofFn c' ≠ [] := by
      intro e
      have := congrArg List.length e
      simp at this; omega
    have hck : check2 (List.ofFn c') = .ok () := by
      refine check2_of hne (K := (keepFeat M (cat2 n cs)).length) ?_ ?_ ?_
      · intro m hm; rw [List.mem_ofFn] at hm; obtain ⟨i, rfl⟩ := hm; exact hFk i
      · intro m hm; rw [List.mem_ofFn] at hm; obtain ⟨i, rfl⟩ := hm; exact (scope_facts (hg i).acc).2.1
      · intro a ha b hb v
        rw [List.mem_ofFn] at ha hb
        obtain ⟨i, rfl⟩ := ha
        obtain ⟨j, rfl⟩ := hb
        rw [(hg i).mem_scope (h.1 i), (hg j).mem_scope (h.1 j), (scope_facts (h.1 i)).2.2.1,
          (scope_facts (h.1 j)).2.2.1, exists_scope_iff, exists_scope_iff, hal.2 i j]
    have hscm : ∀ i, (den (c' i)).map Feat.scope =
        (surviving M (cat2 n cs)).map fun u => u.scope \ M.toFinset := by
      intro i
      have e1 : (den (c' i)).map Feat.scope = (surviving M (cs i)).map fun u => u.scope \ M.toFinset := by
        have := (hg i).feats
        generalize surviving M (cs i) = A at this
        generalize den (c' i) = B at this
        induction this with
        | nil => rfl
        | cons hh _ ih => simp [hh.1, ih]
      have e2 : ∀ c : Circ, ((surviving M c).map fun u => u.scope \ M.toFinset) =
          ((surviving M c).map Feat.scope).map fun s => s \ M.toFinset := by
        intro c; rw [List.map_map]; rfl
      rw [e1, e2, e2, scope_map_surviving, scope_map_surviving, map_scope_cat2 cs hn, hal.2 i ⟨0, hn⟩]
    have hal' : ∀ i j, (den (c' i)).map Feat.scope = (den (c' j)).map Feat.scope := by
      intro i j; rw [hscm i, hscm j]
    have hacc' : Accepted (cat2 n c') := ⟨fun i => (hg i).acc, hck⟩
    have hCeq : (fun k => C (c' k)) = fun k => C (cs k) := funext fun k => (hg k).ch
    have hoff : ∀ i, offC c' i = offC cs i := by intro i; unfold offC; rw [hCeq]
    have good : Good M T (cat2 n cs) (cat2 n c') := by
      refine ⟨hacc', ⟨fun i => (hg i).al, hal'⟩, fun i => (hg i).fin, fun i => (hg i).ne, ?_, ?_, ?_, hs⟩
      · simp only [C, hCeq]
      · rw [tensorR_cat2]; exact ⟨hn, fun i => (hg i).rep⟩
      · rw [forall₂_surviving]
        refine ⟨by rw [← cat2_F hck ⟨0, hn⟩, hFk], fun k hk => ⟨?_, ?_⟩⟩
        · have hk0 : k < F (c' ⟨0, hn⟩) := by rwa [cat2_F hck]
          rw [fscope_cat2 hal' ⟨0, hn⟩, fscope_cat2 hal.2 ⟨0, hn⟩, keepFeat_cat2 h hal ⟨0, hn⟩]
          exact ((forall₂_surviving.1 (hg ⟨0, hn⟩).feats).2 k hk0).1
        · intro x r hr ch hch
          obtain ⟨i, j, hj, rfl⟩ := exists_cat2_index hch
          have hki : k < F (c' i) := by rwa [cat2_F hck]
          have hk' : k < (keepFeat M (cat2 n cs)).length := by rw [← hFk i]; exact hki
          rw [← hoff i, featAt_cat2 i hk (by rw [(hg i).ch]; exact hj), hoff i,
            featAt_cat2 i (keepFeat_getD hk') hj, keepFeat_cat2 h hal i]
          exact ((forall₂_surviving.1 (hg i).feats).2 k hki).2 x r (hr i) j hj
    have hmk : mkCat 2 (List.ofFn c') = .ok (cat2 n c') := by
      simp [mkCat, hck, bind, Except.bind, pure, Except.pure, cat2_ofFn]
    unfold finishCat
    split
    · rename_i e; exact absurd e hne
    · rename_i m e
      split
      · refine ⟨some m, rfl, ?_⟩
        have hlen := congrArg List.length e
        simp at hlen
        subst hlen
        obtain rfl : m = c' 0 := by simpa using e.symm
        have hC1 : C (cat2 1 cs) = C (cs 0) := by simp [C]
        have ho0 : offC cs (0 : Fin 1) = 0 := by simp [offC]
        refine ⟨(hg 0).acc, (hg 0).al, (hg 0).fin, (hg 0).ne, by rw [hC1, (hg 0).ch], (hg 0).rep, ?_, hs⟩
        rw [forall₂_surviving]
        obtain ⟨g1, g2⟩ := forall₂_surviving.1 (hg 0).feats
        refine ⟨hFk 0, fun k hk => ⟨?_, ?_⟩⟩
        · rw [fscope_cat2 hal.2 0, keepFeat_cat2 h hal 0]
          exact (g2 k hk).1
        · intro x r hr ch hch
          rw [hC1] at hch
          have hk' : k < (keepFeat M (cat2 1 cs)).length := by rw [← hFk 0]; exact hk
          have := featAt_cat2 (cs := cs) 0 (f := (keepFeat M (cat2 1 cs)).getD k 0) (keepFeat_getD hk') hch
            (nanOut M x) r
          rw [ho0, zero_add] at this
          rw [this, keepFeat_cat2 h hal 0]
          exact (g2 k hk).2 x r (hr 0) ch hch
      · rw [← e]
        exact ⟨some (cat2 n c'), by simp [hmk, bind, Except.bind, pure, Except.pure], good⟩
    · exact ⟨some (cat2 n c'), by simp [hmk, bind, Except.bind, pure, Except.pure], good⟩


theorem prod_value {M : List Var} {T : ℕ} {c c' : Circ} (h : Accepted c) (hal : Aligned c) (g : Good M T c c')
    {x : Row} {r ch : ℕ} (hr : RepIn r c) (hch : ch < C c) :
    featAt (den (prod c)) 0 (nanOut M x) r ch = ∑ k ∈ Finset.range (F c'), featAt (den c') k x r ch := by
  obtain ⟨g1, g2⟩ := forall₂_surviving.1 g.feats
  apply expL_injective
  rw [expL_featAt_prod, expL_sum]
  have hset : ∀ f ∈ Finset.range (F c), f ∉ (keepFeat M c).toFinset →
      expL (featAt (den c) f (nanOut M x) r ch) = 1 := by
    intro f hf hk
    rw [Finset.mem_range] at hf
    refine expL_featAt_missing h hal hr hf hch fun v hv => ?_
    have hsub : fscope c f ⊆ M.toFinset := by
      by_contra hc
      exact hk (by simp [keepFeat, hf, hc])
    have : v ∈ M := by simpa using hsub hv
    simp [nanOut, this]
  have hsubset : (keepFeat M c).toFinset ⊆ Finset.range (F c) := by
    intro f hf
    rw [List.mem_toFinset] at hf
    exact Finset.mem_range.2 (keepFeat_lt hf)
  rw [← Finset.prod_subset hsubset hset]
  have hnd : (keepFeat M c).Nodup := List.nodup_range.filter _
  rw [List.prod_toFinset _ hnd, ← List.ofFn_get (keepFeat M c), List.map_ofFn, List.prod_ofFn, g1,
    Finset.prod_range]
  refine Finset.prod_congr rfl fun k _ => ?_
  rw [(g2 k (by rw [g1]; exact k.2)).2 x r hr ch hch, List.getD_eq_getElem _ _ k.2]
  rfl

theorem mem_fscope_good {M : List Var} {T : ℕ} {c c' : Circ} (h : Accepted c) (g : Good M T c c') (v : Var) :
    (∃ k < F c', v ∈ fscope c' k) ↔ (∃ f < F c, v ∈ fscope c f) ∧ v ∉ M := by
  rw [← mem_scope_iff g.acc, ← mem_scope_iff h, g.mem_scope h]

theorem keepFeat_prod {M : List Var} {c : Circ} (h : surviving M (prod c) ≠ []) : keepFeat M (prod c) = [0] := by
  have : keepFeat M (prod c) ≠ [] := by
    intro e; apply h; rw [surviving_eq, e]; rfl
  unfold keepFeat at this ⊢
  have hF : F (prod c) = 1 := rfl
  rw [hF, List.range_one] at this ⊢
  by_cases hb : fscope (prod c) 0 ⊆ M.toFinset <;> simp [hb] at this ⊢

theorem post_prod {M : List Var} {T : ℕ} {prune : Bool} {c c' : Circ} (h : Accepted c) (hal : Aligned c)
    (g : Good M T c c') : Post M T (prod c) (finishProd prune (some c')) := by
  have hpos : surviving M (prod c) ≠ [] := by
    rw [Ne, surviving_nil_iff (show Accepted (prod c) from h)]
    have := g.pos
    rwa [Ne, surviving_nil_iff h] at this
  have hkf := keepFeat_prod hpos
  have hsc : ∀ v, v ∈ fscope (prod c) 0 \ M.toFinset ↔ ∃ k < F c', v ∈ fscope c' k := by
    intro v
    rw [mem_fscope_good h g v]
    simp [mem_fscope_prod]
  unfold finishProd
  simp only
  split
  · rename_i hb
    simp only [Bool.and_eq_true, beq_iff_eq] at hb
    refine ⟨g.acc, g.al, g.fin, g.ne, g.ch, g.rep, ?_, hpos⟩
    rw [forall₂_surviving, hkf]
    refine ⟨hb.2, fun k hk => ?_⟩
    obtain rfl : k = 0 := by omega
    refine ⟨?_, fun x r hr ch hch => ?_⟩
    · ext v
      rw [List.getD_cons_zero, hsc v]
      constructor
      · intro hv; exact ⟨0, by omega, hv⟩
      · rintro ⟨k, hk, hv⟩
        obtain rfl : k = 0 := by omega
        exact hv
    · rw [List.getD_cons_zero, prod_value h hal g hr hch, hb.2, Finset.sum_range_one]
  · refine ⟨g.acc, g.al, g.fin, g.ne, g.ch, g.rep, ?_, hpos⟩
    rw [forall₂_surviving, hkf]
    refine ⟨rfl, fun k hk => ?_⟩
    obtain rfl : k = 0 := by simp only [F] at hk; omega
    refine ⟨?_, fun x r hr ch hch => ?_⟩
    · ext v
      rw [List.getD_cons_zero, hsc v, mem_fscope_prod]
    · rw [List.getD_cons_zero, prod_value h hal g hr hch, featAt_prod]

theorem post_sum {M : List Var} {T : ℕ} {c c' : Circ} {Co R : ℕ} {θ} {T₀ : ℕ} (h : Accepted (sum c Co R θ))
    (hfin : FiniteLogits (sum c Co R θ)) (hT : tensorR (sum c Co R θ) = some T) (hT₀ : tensorR c = some T₀)
    (g : Good M T₀ c c') (N : ℕ) (hN : N = F c') (idx : ℕ → ℕ)
    (hidx : ∀ k < F c', idx k = (keepFeat M c).getD k 0) :
    ∃ m, mkSum [c'] ⟨N, C c, Co, R, fun f ci co r => weight c θ (idx f) ci co r⟩ = .ok m ∧
      Good M T (sum c Co R θ) m := by
  subst hN
  obtain ⟨g1, g2⟩ := forall₂_surviving.1 g.feats
  have hlt : ∀ k < F c', idx k < F c := by
    intro k hk; rw [hidx k hk]; exact keepFeat_getD (by omega)
  have hsumw : ∀ k < F c', ∀ co < Co, ∀ r < R,
      ∑ ci ∈ Finset.range (C c), weight c θ (idx k) ci co r = 1 := fun k hk co hco r hr =>
    sum_softmax (h.2.2 _ (hlt k hk) co hco r hr)
  let w : Weights := ⟨F c', C c, Co, R, fun f ci co r => weight c θ (idx f) ci co r⟩
  obtain ⟨θ', hθ'⟩ : ∃ θ', setWeights c' Co R w = .ok θ' := by
    rw [C08_setter_accepts_iff]
    refine ⟨⟨rfl, g.ch.symm, rfl, rfl⟩, ?_, ?_⟩
    · intro f hf ci hci co hco r hr
      show 0 < weight c θ (idx f) ci co r
      unfold weight
      exact softmax_pos hci (hfin.2 _ (hlt f hf) ci hci co hco r hr)
    · intro f hf co hco r hr
      rw [show ∑ ci ∈ Finset.range w.Ci, w.val f ci co r = 1 from hsumw f hf co hco r hr]
      norm_num
  have hget : ∀ f < F c', ∀ ci < C c, ∀ co < Co, ∀ r < R,
      weight c' θ' f ci co r = weight c θ (idx f) ci co r := fun f hf ci hci co hco r hr =>
    (C08_set_get c' Co R w θ' hθ' hf hci hco hr).2 (hsumw f hf co hco r hr)
  have hmk : mkSum [c'] w = .ok (sum c' Co R θ') := by
    have h1 : ¬ w.Co < 1 := by have := h.2.1; show ¬ Co < 1; omega
    simp only [mkSum, bind, Except.bind, pure, Except.pure, throw, throwThe, MonadExceptOf.throw]
    simp only [List.isEmpty_cons, h1, if_false, Bool.false_eq_true]
    rw [show setWeights c' w.Co w.R w = .ok θ' from hθ']
  have hok := (C10_constructors_accepted.2.2.2 [c'] w (sum c' Co R θ')
    (by intro m hm; rw [List.mem_singleton] at hm; subst hm; exact ⟨g.acc, g.fin⟩) hmk)
  refine ⟨_, hmk, hok.1, g.al, hok.2, g.ne, rfl, ?_, ?_, ?_⟩
  · have : tensorR c' = tensorR c := by rw [hT₀, g.rep]
    rw [← hT]
    simp only [tensorR, this]
  · rw [forall₂_surviving]
    have hkf : keepFeat M (sum c Co R θ) = keepFeat M c := by
      unfold keepFeat
      exact List.filter_congr fun f _ => by rw [fscope_sum]
    rw [hkf]
    refine ⟨g1, fun k hk => ?_⟩
    replace hk : k < F c' := hk
    have hk' : (keepFeat M c).getD k 0 < F c := keepFeat_getD (by omega)
    refine ⟨by rw [fscope_sum, fscope_sum]; exact (g2 k hk).1, fun x r hr co hco => ?_⟩
    apply expL_injective
    rw [expL_featAt_sum hk, expL_featAt_sum hk', g.ch]
    refine Finset.sum_congr rfl fun ci hci => ?_
    rw [Finset.mem_range] at hci
    rw [(g2 k hk).2 x r hr.1 ci hci, hget k hk ci hci co hco _ (bc_lt hr.2), hidx k hk]
  · intro hs
    rw [surviving_nil_iff h] at hs
    exact g.pos ((surviving_nil_iff h.1).2 hs)

/-- the full postcondition, by structural induction -/
theorem marg_post {M : List Var} {prune : Bool} {c : Circ} (h : Accepted c) (hal : Aligned c)
    (hfin : FiniteLogits c) (hn : LeavesNonempty c) {T : ℕ} (hT : tensorR c = some T) :
    ∃ o, marg M prune c = .ok o ∧ Post M T c o := by
  induction c generalizing T with
  | leaf q C R d =>
    obtain rfl : R = T := by simpa [tensorR] using hT
    exact ⟨_, rfl, post_leaf M q C R d h⟩
  | cat1 n cs ih =>
    rw [marg]
    split
    · have hT' := tensorR_cat1.1 hT
      have := fun i => ih i (h.1 i) (hal i) (hfin i) (hn i) (hT'.2 i)
      choose o ho hp using this
      obtain ⟨r, hr, hpr⟩ := post_cat1 (prune := prune) h o hp
      refine ⟨r, ?_, hpr⟩
      have := collect_ok (List.ofFn cs) (List.ofFn o) (forall₂_ofFn ho)
      rw [List.map_ofFn] at this
      simp only [Function.comp_def] at this
      simp only [bind, Except.bind, this, hr]
    · rename_i ht
      exact ⟨_, rfl, good_self h hal hfin hn hT (by simpa using ht)⟩
  | cat2 n cs ih =>
    rw [marg]
    split
    · have hT' := tensorR_cat2.1 hT
      have := fun i => ih i (h.1 i) (hal.1 i) (hfin i) (hn i) (hT'.2 i)
      choose o ho hp using this
      obtain ⟨r, hr, hpr⟩ := post_cat2 (prune := prune) h hal hT o hp
      refine ⟨r, ?_, hpr⟩
      have := collect_ok (List.ofFn cs) (List.ofFn o) (forall₂_ofFn ho)
      rw [List.map_ofFn] at this
      simp only [Function.comp_def] at this
      simp only [bind, Except.bind, this, hr]
    · rename_i ht
      exact ⟨_, rfl, good_self h hal hfin hn hT (by simpa using ht)⟩
  | prod c ih =>
    replace h : Accepted c := h
    replace hal : Aligned c := hal
    replace hfin : FiniteLogits c := hfin
    replace hn : LeavesNonempty c := hn
    replace hT : tensorR c = some T := hT
    rw [marg]
    split
    · rename_i hc
      exact ⟨none, rfl, (surviving_nil_iff (show Accepted (prod c) from h)).2 (covers_iff.1 hc)⟩
    · rename_i hc
      have hs : surviving M c ≠ [] := by
        rw [Ne, surviving_nil_iff h]; exact fun e => hc (covers_iff.2 e)
      split
      · obtain ⟨o, ho, hp⟩ := ih h hal hfin hn hT
        cases o with
        | none => exact absurd hp hs
        | some c' =>
          exact ⟨_, by simp [ho, bind, Except.bind, pure, Except.pure]; rfl, post_prod h hal hp⟩
      · rename_i ht
        exact ⟨_, rfl, post_prod h hal (good_self h hal hfin hn hT (by simpa using ht))⟩
  | sum c Co R θ ih =>
    have hal' : Aligned c := hal
    have hn' : LeavesNonempty c := hn
    obtain ⟨T₀, hT₀⟩ : ∃ T₀, tensorR c = some T₀ := by
      rcases e : tensorR c with _ | T₀
      · simp [tensorR, e] at hT
      · exact ⟨T₀, rfl⟩
    rw [marg]
    split
    · rename_i hc
      exact ⟨none, rfl, (surviving_nil_iff h).2 (covers_iff.1 hc)⟩
    · rename_i hc
      have hs : surviving M c ≠ [] := by
        rw [Ne, surviving_nil_iff h.1]; exact fun e => hc (covers_iff.2 e)
      split
      · obtain ⟨o, ho, hp⟩ := ih h.1 hal' hfin.1 hn' hT₀
        cases o with
        | none => exact absurd hp hs
        | some c' =>
          have hg : Good M T₀ c c' := hp
          obtain ⟨m, hm, gm⟩ := post_sum h hfin hT hT₀ hg (keepFeat M c).length
            (forall₂_surviving.1 hg.feats).1.symm (fun k => (keepFeat M c).getD k 0) (fun _ _ => rfl)
          exact ⟨some m, by simp only [ho, hm, bind, Except.bind, pure, Except.pure], gm⟩
      · rename_i ht
        have hg := good_self h.1 hal' hfin.1 hn' hT₀ (by simpa using ht)
        have g1 := (forall₂_surviving.1 hg.feats).1
        have hkr : keepFeat M c = List.range (F c) := by
          unfold keepFeat at g1 ⊢
          rw [List.filter_eq_self]
          refine List.length_filter_eq_length_iff.1 ?_
          rw [← g1, List.length_range]
        obtain ⟨m, hm, gm⟩ := post_sum h hfin hT hT₀ hg (F c) rfl id
          (fun k hk => by rw [hkr, List.getD_eq_getElem _ _ (by simpa using hk)]; simp)
        exact ⟨some m, by
          simp only [id] at hm
          simp [hm, bind, Except.bind, pure, Except.pure], gm⟩

/-! ## C12 -/

/-- C12: `module.marginalize(M, prune)`, for every set `M`, with and without pruning: never raises; returns None iff
every query variable is in `M`; otherwise returns a module the constructors accept, over the remaining variables, with
the same channels and repetitions, whose features are the surviving features in order, each with the
likelihood the original has when the columns of `M` are NaN.
(`_partial`: `Aligned` as for C10/C11, and `FiniteLogits` is needed because a weight that became 0 makes the weight
setter of the rebuilt Sum raise, see `C12_zero_weight_raises`; empty-scope leaves excluded.) -/
theorem C12_marginalize_partial (M : List Var) (prune : Bool) {c : Circ} (h : Accepted c) (hal : Aligned c)
    (hfin : FiniteLogits c) (hn : LeavesNonempty c) {T : ℕ} (hT : tensorR c = some T) :
    ∃ o, marg M prune c = .ok o ∧ (o = none ↔ ∀ v ∈ (scope c).query, v ∈ M) ∧
      ∀ c', o = some c' → Accepted c' ∧ C c' = C c ∧ tensorR c' = some T ∧
        (∀ v, v ∈ (scope c').query ↔ v ∈ (scope c).query ∧ v ∉ M) ∧
        List.Forall₂ (FeatMarg M (fun r => T = 1 ∨ r < T) (C c)) (surviving M c) (den c') := by
  obtain ⟨o, ho, hp⟩ := marg_post (M := M) (prune := prune) h hal hfin hn hT
  refine ⟨o, ho, ?_, ?_⟩
  · rw [← surviving_nil_iff h]
    cases o with
    | none => exact ⟨fun _ => hp, fun _ => rfl⟩
    | some c' => exact ⟨fun e => by simp at e, fun e => absurd e (Good.pos hp)⟩
  · rintro c' rfl
    have g : Good M T c c' := hp
    exact ⟨g.acc, g.ch, g.rep, g.mem_scope h, g.feats.imp fun u u' hu =>
      hu.mono (fun r hr => repIn_of_tensorR hT hr) le_rfl⟩

/-- C12 for a module with one output feature, in terms of `log_likelihood` alone: evaluating the
marginalised module on any row is evaluating the original on the row with NaN in the columns of `M`. -/
theorem C12_marginalize_log_likelihood_partial (M : List Var) (prune : Bool) {c c' : Circ} (h : Accepted c)
    (hal : Aligned c) (hfin : FiniteLogits c) (hn : LeavesNonempty c) (h1 : F c = 1)
    (hm : marg M prune c = .ok (some c')) (x : Row) {L L' : ℕ → ℕ → ℕ → LogV} {T : ℕ} (hT : tensorR c = some T)
    (hL : logLik c (nanOut M x) = .ok L) (hL' : logLik c' x = .ok L') {ch r : ℕ} (hch : ch < C c) (hr : r < T) :
    F c' = 1 ∧ C c' = C c ∧ L' 0 ch r = L 0 ch r := by
  obtain ⟨o, ho, hp⟩ := marg_post (M := M) (prune := prune) h hal hfin hn hT
  obtain rfl : o = some c' := by rw [ho] at hm; simpa using hm
  have g : Good M T c c' := hp
  obtain ⟨g1, g2⟩ := forall₂_surviving.1 g.feats
  have hlen : (keepFeat M c).length ≤ 1 := by
    unfold keepFeat; rw [h1]; exact (List.length_filter_le _ _).trans (by simp)
  have hpos : (keepFeat M c) ≠ [] := by
    intro e; exact g.pos (by rw [surviving_eq, e]; rfl)
  have hF : F c' = 1 := by
    have := List.length_pos_iff.2 hpos
    omega
  refine ⟨hF, g.ch, ?_⟩
  have hidx : (keepFeat M c).getD 0 0 = 0 := by
    have := keepFeat_getD (M := M) (c := c) (k := 0) (by omega)
    omega
  have key := (g2 0 (by omega)).2 x r (repIn_of_tensorR hT (.inr hr)) ch hch
  rw [hidx] at key
  simp only [logLik, hT, g.rep, Except.ok.injEq] at hL hL'
  rw [← hL, ← hL']
  exact key

/-- Non-vacuity: the mixed Bernoulli/Normal mixture of C10, marginalising the Normal. -/
example : ∃ c', marg [1] true exMix = .ok (some c') ∧ Accepted c' ∧ ∀ v, v ∈ (scope c').query ↔ v = 0 := by
  obtain ⟨h1, h2, -, h4, h5, h6, h7⟩ := exMix_ok
  have hfin : FiniteLogits exMix := by
    refine ⟨fun i => ?_, fun f _ ci _ co _ r _ => ?_⟩
    · fin_cases i <;> exact fun i => by fin_cases i <;> exact trivial
    · have : (0:ℝ) < if ci = 0 then 1/4 else 3/4 := by split <;> norm_num
      simp only [logL, this, if_true]
      exact WithBot.coe_ne_bot
  have hne : LeavesNonempty exMix := by
    intro i
    fin_cases i <;> exact fun i => by fin_cases i <;> exact List.cons_ne_nil _ _
  obtain ⟨o, ho, hnone, hsome⟩ := C12_marginalize_partial [1] true h1 h2 hfin hne h4
  have hq : (scope exMix).query = [0, 1] := rfl
  rw [hq] at hnone hsome
  cases o with
  | none => exact absurd (hnone.1 rfl 0 (by simp)) (by decide)
  | some c' =>
    obtain ⟨a1, -, -, a4, -⟩ := hsome c' rfl
    refine ⟨c', ho, a1, fun v => (a4 v).trans ?_⟩
    simp only [List.mem_cons, List.not_mem_nil, or_false]
    omega

/-- C12 is false once a weight is exactly zero (which EM produces, see C28): the Sum is still evaluable, but
marginalising it raises InvalidWeights. -/
theorem C12_zero_weight_raises :
    ∃ c, Accepted c ∧ Aligned c ∧ LeavesNonempty c ∧ tensorR c = some 1 ∧ (scope c).query = [0, 1] ∧
      marg [1] true c = .error .invalidWeights := by
  refine ⟨sum (leaf [0, 1] 2 1 fun _ _ _ => Leaves.bernoulliLL (1/2)) 1 1
    fun _ ci _ _ => if ci = 0 then (0 : ℝ) else ⊥, ⟨rfl, le_rfl, ?_⟩, trivial, by simp [LeavesNonempty], rfl, rfl, ?_⟩
  · intro f _ co _ r _
    exact ⟨0, by decide, by simp⟩
  · rw [marg]
    have hc : covers [1] (scope (leaf [0, 1] 2 1 fun _ _ _ => Leaves.bernoulliLL (1/2))) = false := by decide
    have ht : touches [1] (scope (leaf [0, 1] 2 1 fun _ _ _ => Leaves.bernoulliLL (1/2))) = true := by decide
    rw [hc, ht]
    simp only [Bool.false_eq_true, if_false, if_true, marg, bind, Except.bind]
    have hml : margLeaf [1] [0, 1] 2 1 (fun _ _ _ => Leaves.bernoulliLL (1/2)) =
      some (leaf [0] 2 1 fun _ _ _ => Leaves.bernoulliLL (1/2)) := rfl
    rw [hml]
    have hk : keepFeat [1] (leaf [0, 1] 2 1 fun _ _ _ => Leaves.bernoulliLL (1/2)) = [0] := by
      rw [← keepIdx_eq]; decide
    rw [hk]
    have hw : setWeights (leaf [0] 2 1 fun _ _ _ => Leaves.bernoulliLL (1/2)) 1 1 ⟨1, 2, 1, 1, fun f ci co r =>
        weight (leaf [0, 1] 2 1 fun _ _ _ => Leaves.bernoulliLL (1/2))
          (fun _ ci _ _ => if ci = 0 then (0 : ℝ) else ⊥) (([0] : List ℕ).getD f 0) ci co r⟩ =
        .error .invalidWeights := by
      unfold setWeights
      rw [if_neg (by simp [F, C]), if_pos]
      intro hp
      have := hp 0 (by decide) 1 (by decide) 0 (by decide) 0 (by decide)
      simp only [weight, softmax_eq, one_ne_zero, if_false, expL_bot, zero_div, lt_irrefl] at this
    simp only [mkSum, bind, Except.bind, pure, Except.pure, throw, throwThe, MonadExceptOf.throw]
    have hw' : setWeights (leaf [0] 2 1 fun _ _ _ => Leaves.bernoulliLL (1/2)) 1 1
        ⟨([0] : List ℕ).length, C (leaf [0, 1] 2 1 fun _ _ _ => Leaves.bernoulliLL (1/2)), 1, 1, fun f ci co r =>
        weight (leaf [0, 1] 2 1 fun _ _ _ => Leaves.bernoulliLL (1/2))
          (fun _ ci _ _ => if ci = 0 then (0 : ℝ) else ⊥) (([0] : List ℕ).getD f 0) ci co r⟩ =
        .error .invalidWeights := hw
    simp only [hw']
    rfl

end Circ
end Verif

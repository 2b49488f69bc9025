import Verif.ListProdSample

/-!
C69: `ElementwiseProduct` and `OuterProduct` over a list of modules, nested with Cat, Product and Sum.
-/

namespace Verif.LP

open Finset MeasureTheory Verif.Circ
open Verif.Conv (Fam actU ratiosU)
open Verif.Prog hiding bind

variable {μ : Var → Measure ℝ}

namespace Mod

/-! ### Specification -/

/-- `x` is `e` with the variables of `m` filled in. -/
def Completes (m : Mod) (e x : Row) : Prop :=
  (∀ v ∈ (scope m).query, x v ≠ none) ∧ (∀ v t, e v = some t → x v = some t) ∧ ∀ v, v ∉ (scope m).query → x v = e v

/-- The likelihood of `x`: the product over the features of the first channel. -/
noncomputable def likelihood (m : Mod) (x : Row) : ℝ := ∏ f ∈ range (F m), expL (val m f x 0 0)

/-- The variables of the modules of `l` are pairwise different. -/
def DisjointScopes (l : List Mod) : Prop :=
  ∀ i j (hi : i < l.length) (hj : j < l.length), i < j → ∀ v ∈ (scope l[i]).query, v ∉ (scope l[j]).query

/-- All modules of `l` have the same number of features. -/
def SameFeatures (l : List Mod) : Prop := ∀ a ∈ l, ∀ b ∈ l, F a = F b

/-! ### Constructors -/

theorem disjoint_iff {l : List Mod} (h : ∀ m ∈ l, Good μ m) :
    ∃ b, Scope.allPairwiseDisjoint (l.map scope) = .ok b ∧ (b = true ↔ DisjointScopes l) := by
  obtain ⟨b, hb, hi⟩ := Scope.C03_allPairwiseDisjoint (l := l.map scope) (fun t ht => by
    obtain ⟨m, hm, rfl⟩ := List.mem_map.1 ht
    exact reachable_of_valid (scope_facts (h m hm)).1)
  refine ⟨b, hb, hi.trans ?_⟩
  unfold DisjointScopes
  simp

theorem join_ok {l : List Mod} (h : ∀ m ∈ l, Good μ m) (hne : l ≠ []) : ∃ s, Scope.joinAll (l.map scope) = .ok s := by
  obtain ⟨s, hs, -⟩ := Scope.joinAll_ok (l.map scope) (by simpa using hne) (fun t ht => by
    obtain ⟨m, hm, rfl⟩ := List.mem_map.1 ht
    exact (scope_facts (h m hm)).1)
  exact ⟨s, hs⟩

theorem dedup_const {l : List ℕ} (hne : l ≠ []) {k : ℕ} (h : ∀ a ∈ l, a = k) : l.dedup = [k] := by
  have : l = List.replicate l.length k := List.eq_replicate_iff.2 ⟨rfl, h⟩
  have hl : l.length ≠ 0 := by simpa using hne
  rw [this, List.replicate_dedup hl]

theorem filter_two {l : List ℕ} {k : ℕ} (hk : k ∈ l) (hk1 : k ≠ 1) (h : ∀ a ∈ l, a = 1 ∨ a = k) :
    (l.dedup.filter (· != 1)).length = 1 := by
  have hnd : (l.dedup.filter (· != 1)).Nodup := (List.nodup_dedup l).filter _
  have hmem : ∀ a, a ∈ l.dedup.filter (· != 1) ↔ a = k := by
    intro a
    simp only [List.mem_filter, List.mem_dedup, bne_iff_ne]
    constructor
    · rintro ⟨h1, h2⟩
      exact (h a h1).resolve_left h2
    · rintro rfl; exact ⟨hk, hk1⟩
  have : l.dedup.filter (· != 1) = [k] := by
    apply List.perm_singleton.1
    exact (List.perm_ext_iff_of_nodup hnd (List.nodup_singleton k)).2 fun a => by simp [hmem]
  rw [this]; rfl

theorem mkMul_ok {outer : Bool} {l : List Mod} {m : Mod} (h : mkMul outer l = .ok m) :
    checkMul outer l = .ok () ∧ m = mul outer l.length l.get := by
  unfold mkMul at h
  cases hc : checkMul outer l with
  | error e => rw [hc] at h; cases h
  | ok u => rw [hc] at h; cases h; exact ⟨rfl, rfl⟩

theorem ofFn_get_map {α : Type*} (l : List Mod) (g : Mod → α) : (List.ofFn fun i : Fin l.length => g (l.get i)) = l.map g := by
  apply List.ext_getElem <;> simp

/-- **C69 (ElementwiseProduct: constructor).** A list of modules with the same number of features is accepted exactly
if it is non-empty, the scopes are pairwise disjoint and every input has one channel or the largest number of channels.
The result has the features of its inputs and the largest number of channels. -/
theorem C69_elementwise_accepts {l : List Mod} (h : ∀ m ∈ l, Good μ m) (hF : SameFeatures l) :
    ((∃ m, mkMul false l = .ok m) ↔ l ≠ [] ∧ DisjointScopes l ∧ ∀ a ∈ l, C a = 1 ∨ ∀ b ∈ l, C b ≤ C a) ∧
    ∀ m, mkMul false l = .ok m → (∀ a ∈ l, F m = F a) ∧ (∀ a ∈ l, C a ≤ C m) ∧ ∃ a ∈ l, C m = C a := by
  have hmax : ∀ hne : l ≠ [], ∀ a ∈ l, (C a = (l.map C).foldr max 0 ↔ ∀ b ∈ l, C b ≤ C a) := by
    intro hne a ha
    constructor
    · intro e b hb
      rw [e]
      exact le_foldr_max (List.mem_map.2 ⟨b, hb, rfl⟩)
    · intro hb
      obtain ⟨c, hc, e⟩ := List.mem_map.1 (foldr_max_mem (l := l.map C) (by simpa using hne))
      have := le_foldr_max (List.mem_map.2 ⟨a, ha, rfl⟩ : C a ∈ l.map C)
      have := hb c hc
      omega
  constructor
  · constructor
    · rintro ⟨m, hm⟩
      obtain ⟨hck, -⟩ := mkMul_ok hm
      obtain ⟨hne, hd, -, hC⟩ := checkMul_ok hck
      refine ⟨hne, ?_, fun a ha => ?_⟩
      · obtain ⟨b, hb, hi⟩ := disjoint_iff h
        rw [hd] at hb
        exact hi.1 (by cases hb; rfl)
      · exact (hC rfl a ha).imp id fun e => (hmax hne a ha).1 e
    · rintro ⟨hne, hd, hC⟩
      obtain ⟨b, hb, hi⟩ := disjoint_iff h
      obtain rfl := hi.2 hd
      obtain ⟨s, hs⟩ := join_ok h hne
      have hall : (l.map C).all (fun c => c == 1 || c == (l.map C).foldr max 0) = true := by
        rw [List.all_eq_true]
        intro c hc
        obtain ⟨a, ha, rfl⟩ := List.mem_map.1 hc
        simp only [Bool.or_eq_true, beq_iff_eq]
        exact (hC a ha).imp id fun e => (hmax hne a ha).2 e
      have hsh : shapesElem (l.map F) (l.map C) = true := by
        unfold shapesElem
        simp only [Bool.or_eq_true]
        obtain ⟨c, hc, e⟩ := List.mem_map.1 (foldr_max_mem (l := l.map C) (by simpa using hne))
        by_cases h1 : C c = 1
        · left; left; left
          rw [List.all_eq_true]
          obtain ⟨a, l', rfl⟩ := List.exists_cons_of_ne_nil hne
          intro p hp
          have hone : ∀ b ∈ a :: l', C b = 1 := by
            intro b hb
            rcases hC b hb with h2 | h2
            · exact h2
            · have := h2 c hc
              have := le_foldr_max (List.mem_map.2 ⟨b, hb, rfl⟩ : C b ∈ (a :: l').map C)
              omega
          rw [List.zip_map', List.mem_map] at hp
          obtain ⟨b, hb, rfl⟩ := hp
          simp only [List.map_cons, List.zip_cons_cons, List.head?_cons, beq_iff_eq, Option.some.injEq, Prod.mk.injEq]
          exact ⟨hF a (by simp) b hb, by rw [hone a (by simp), hone b hb]⟩
        · left; right
          rw [beq_iff_eq]
          refine filter_two (k := C c) (List.mem_map.2 ⟨c, hc, rfl⟩) h1 ?_
          intro x hx
          obtain ⟨b, hb, rfl⟩ := List.mem_map.1 hx
          exact (hC b hb).imp id fun h2 => by rw [(hmax hne b hb).2 h2, e]
      refine ⟨mul false l.length l.get, ?_⟩
      unfold mkMul checkMul
      simp only [bind, Except.bind, pure, Except.pure, throw, throwThe, MonadExceptOf.throw, hb, hs, hall, hsh]
      simp [hne]
  · intro m hm
    obtain ⟨hck, rfl⟩ := mkMul_ok hm
    have hne := (checkMul_ok hck).1
    have hn : 0 < l.length := List.length_pos_iff.2 hne
    have ec : C (mul false l.length l.get) = (l.map C).foldr max 0 := by
      rw [C, if_neg (by simp), ofFn_get_map]
    have ef : F (mul false l.length l.get) = F l[0] := by rw [F, dif_pos hn]; rfl
    refine ⟨fun a ha => ?_, fun a ha => ?_, ?_⟩
    · rw [ef]; exact hF _ (List.getElem_mem _) _ ha
    · rw [ec]; exact le_foldr_max (List.mem_map.2 ⟨a, ha, rfl⟩)
    · obtain ⟨c, hc, e⟩ := List.mem_map.1 (foldr_max_mem (l := l.map C) (by simpa using hne))
      exact ⟨c, hc, by rw [ec, e]⟩

/-- **C69 (OuterProduct: constructor).** A list of modules with the same number of features is accepted exactly if it is
non-empty, the scopes are pairwise disjoint and - for a single input - that input has one feature.  The result has the
features of its inputs and the product of their channel counts. -/
theorem C69_outer_accepts {l : List Mod} (h : ∀ m ∈ l, Good μ m) (hF : SameFeatures l) :
    ((∃ m, mkMul true l = .ok m) ↔ l ≠ [] ∧ DisjointScopes l ∧ (l.length = 1 → ∀ a ∈ l, F a = 1)) ∧
    ∀ m, mkMul true l = .ok m → (∀ a ∈ l, F m = F a) ∧ C m = (l.map C).prod := by
  constructor
  · constructor
    · rintro ⟨m, hm⟩
      obtain ⟨hck, -⟩ := mkMul_ok hm
      obtain ⟨hne, hd, ⟨s, hs⟩, -⟩ := checkMul_ok hck
      refine ⟨hne, ?_, fun h1 a ha => ?_⟩
      · obtain ⟨b, hb, hi⟩ := disjoint_iff h
        rw [hd] at hb
        exact hi.1 (by cases hb; rfl)
      · obtain ⟨c, rfl⟩ := List.length_eq_one_iff.1 h1
        rw [List.mem_singleton] at ha
        subst ha
        by_contra hF1
        unfold checkMul at hck
        simp only [bind, Except.bind, pure, Except.pure, throw, throwThe, MonadExceptOf.throw, hd, hs] at hck
        simp [hF1] at hck
    · rintro ⟨hne, hd, h1⟩
      obtain ⟨b, hb, hi⟩ := disjoint_iff h
      obtain rfl := hi.2 hd
      obtain ⟨s, hs⟩ := join_ok h hne
      have hsh : shapesOuter (l.map F) (l.map C) = true := by
        unfold shapesOuter
        obtain ⟨a, l', rfl⟩ := List.exists_cons_of_ne_nil hne
        rw [dedup_const (l := (a :: l').map F) (k := F a) (by simp) (fun x hx => by
          obtain ⟨b, hb, rfl⟩ := List.mem_map.1 hx
          exact hF b hb a (by simp))]
        simp
      have hl1 : (l.length == 1 && (l.head?.map F).getD 0 != 1) = false := by
        by_cases hl : l.length = 1
        · obtain ⟨c, rfl⟩ := List.length_eq_one_iff.1 hl
          simp [h1 hl c (by simp)]
        · simp [hl]
      refine ⟨mul true l.length l.get, ?_⟩
      unfold mkMul checkMul
      simp only [bind, Except.bind, pure, Except.pure, throw, throwThe, MonadExceptOf.throw, hb, hs, hl1, hsh]
      simp [hne]
  · intro m hm
    obtain ⟨hck, rfl⟩ := mkMul_ok hm
    have hne := (checkMul_ok hck).1
    have hn : 0 < l.length := List.length_pos_iff.2 hne
    have ef : F (mul true l.length l.get) = F l[0] := by rw [F, dif_pos hn]; rfl
    refine ⟨fun a ha => ?_, ?_⟩
    · rw [ef]; exact hF _ (List.getElem_mem _) _ ha
    · rw [C, if_pos rfl, ofFn_get_map]
      exact (Outer.C19_unravel_bijective _).1

/-- **C69 (constructors).** What the constructors return for accepted arguments is again a module the theorems below
apply to. -/
theorem C69_constructors {l : List Mod} (h : ∀ m ∈ l, Good μ m) :
    (∀ outer m, SameFeatures l → mkMul outer l = .ok m → Good μ m) ∧
    (∀ m, mkCat 1 l = .ok m → Good μ m) ∧
    (∀ m, (∀ a ∈ l, ∀ b ∈ l, ∀ f < F a, fs a f = fs b f) → mkCat 2 l = .ok m → Good μ m) ∧
    (∀ m, mkProd l = .ok m → Good μ m) ∧
    ∀ w m, (∀ a ∈ l, ∀ b ∈ l, ∀ f < F a, fs a f = fs b f) → (∀ a ∈ l, 1 ≤ C a) → mkSum l w = .ok m → Good μ m := by
  have hget : ∀ i, Good μ (l.get i) := fun i => h _ (List.get_mem l i)
  have hc1 : ∀ m, mkCat 1 l = .ok m → Good μ m := by
    intro m hm
    unfold mkCat at hm
    rw [if_pos rfl] at hm
    cases hc : check1 l with
    | error e => rw [hc] at hm; cases hm
    | ok u =>
      rw [hc] at hm; cases hm
      exact ⟨hget, by rw [List.ofFn_get]; exact hc⟩
  have hc2 : ∀ m, (∀ a ∈ l, ∀ b ∈ l, ∀ f < F a, fs a f = fs b f) → mkCat 2 l = .ok m →
      Good μ m ∧ m = cat2 l.length l.get := by
    intro m hal hm
    unfold mkCat at hm
    rw [if_neg (by decide), if_pos rfl] at hm
    cases hc : check2 l with
    | error e => rw [hc] at hm; cases hm
    | ok u =>
      rw [hc] at hm; cases hm
      exact ⟨⟨hget, by rw [List.ofFn_get]; exact hc,
        fun i j f hf => hal _ (List.get_mem l i) _ (List.get_mem l j) f hf⟩, rfl⟩
  refine ⟨?_, hc1, fun m hal hm => (hc2 m hal hm).1, ?_, ?_⟩
  · intro outer m hF hm
    obtain ⟨hck, rfl⟩ := mkMul_ok hm
    exact ⟨hget, by rw [List.ofFn_get]; exact hck, fun i j => hF _ (List.get_mem l i) _ (List.get_mem l j)⟩
  · intro m hm
    unfold mkProd at hm
    split at hm
    · rename_i a
      cases hm
      exact (show Good μ a from h a (by simp))
    · cases hc : mkCat 1 l with
      | error e => rw [hc] at hm; cases hm
      | ok m' => rw [hc] at hm; cases hm; exact hc1 m' hc
  · intro w m hal hC hm
    unfold mkSum at hm
    simp only [bind, Except.bind, pure, Except.pure, throw, throwThe, MonadExceptOf.throw] at hm
    split at hm
    · cases hm
    rename_i hne
    split at hm
    · cases hm
    rename_i hCo
    have key : ∀ m' : Mod, Good μ m' → 1 ≤ C m' → ∀ θ, setWeights m' w.Co w.R w = .ok θ →
        Good μ (sum m' w.Co w.R θ) := by
      intro m' hm' hCm θ hθ
      refine ⟨hm', by omega, ?_⟩
      unfold setWeights at hθ
      split at hθ
      · cases hθ
      rename_i hs
      split at hθ
      · cases hθ
      rename_i hp
      split at hθ
      · cases hθ
      cases hθ
      push Not at hs hp
      intro f hf co hco r hr
      refine ⟨0, hCm, ?_⟩
      have := hp f (by omega) 0 (by omega) co hco r hr
      rw [Ne, ← expL_eq_zero_iff, expL_logL this.le]
      exact this.ne'
    have fin : ∀ m' : Mod, Good μ m' → 1 ≤ C m' →
        ((setWeights m' w.Co w.R w).bind fun θ => .ok (sum m' w.Co w.R θ)) = .ok m → Good μ m := by
      intro m' h1 h2 h3
      cases hw : setWeights m' w.Co w.R w with
      | error e => rw [hw] at h3; cases h3
      | ok θ => rw [hw] at h3; cases h3; exact key m' h1 h2 θ hw
    split at hm
    · rename_i a
      exact fin a (h a (by simp)) (hC a (by simp)) hm
    · cases hv : mkCat 2 l with
      | error e => rw [hv] at hm; cases hm
      | ok v =>
      rw [hv] at hm
      obtain ⟨hg, rfl⟩ := hc2 v hal hv
      refine fin _ hg ?_ hm
      obtain ⟨a, l', rfl⟩ := List.exists_cons_of_ne_nil (by simpa using hne : l ≠ [])
      have := hC a (by simp)
      rw [C, ofFn_get_map, List.map_cons, List.sum_cons]
      exact le_trans this (Nat.le_add_right _ _)

/-! ### log_likelihood -/

theorem tensor_mul {outer : Bool} {n : ℕ} {cs : Fin n → Mod} {T : ℕ} (h : tensorR (mul outer n cs) = some T) :
    T = R (mul outer n cs) ∧ ∀ i, (F (cs i) = F (mul outer n cs) ∨ (outer = true ∧ F (cs i) = 1)) ∧
      ∃ t, tensorR (cs i) = some t ∧ (t = T ∨ t = 1) := by
  cases outer <;> simp only [tensorR] at h
  · split_ifs at h with hn hc
    cases h
    refine ⟨by rw [R, dif_pos hn], fun i => ⟨.inl ?_, ?_⟩⟩
    · rw [F, dif_pos hn]; exact hc.1 i
    · exact ⟨_, hc.2 i, .inl rfl⟩
  · split_ifs at h with hn hc
    cases h
    refine ⟨by rw [R, dif_pos hn], fun i => ⟨?_, ?_⟩⟩
    · rw [F, dif_pos hn]; exact (hc.1 i).imp id fun e => ⟨rfl, e⟩
    · rcases hc.2.2 i with e | e
      · exact ⟨_, e, .inl rfl⟩
      · exact ⟨_, e, .inr rfl⟩

theorem logLik_ok {m : Mod} {x : Row} {T} (h : logLik m x = .ok T) :
    (∃ t, tensorR m = some t) ∧ T = fun f ch r => val m f x r ch := by
  unfold logLik at h
  split at h
  · cases h
  · rename_i t ht
    cases h; exact ⟨⟨t, ht⟩, rfl⟩

theorem logLik_of {m : Mod} {t : ℕ} (h : tensorR m = some t) (x : Row) :
    logLik m x = .ok fun f ch r => val m f x r ch := by
  unfold logLik
  rw [h]

/-- **C69 (ElementwiseProduct: value).** If `log_likelihood` of an elementwise product of the modules `l` returns, then
so does that of every input, and entry `(f, ch)` is the sum over the inputs of their entry `(f, ch)`, a one-channel input
contributing its only channel. -/
theorem C69_elementwise_log_likelihood {l : List Mod} {m : Mod} (h : mkMul false l = .ok m) {x : Row} {T}
    (hT : logLik m x = .ok T) : ∃ Ts : Fin l.length → ℕ → ℕ → ℕ → LogV, (∀ i, logLik l[i] x = .ok (Ts i)) ∧
      ∀ f ch r, ch < C m → T f ch r = ∑ i : Fin l.length, Ts i f (if C l[i] = 1 then 0 else ch) r := by
  obtain ⟨hck, rfl⟩ := mkMul_ok h
  obtain ⟨⟨t, ht⟩, rfl⟩ := logLik_ok hT
  obtain ⟨-, hi⟩ := tensor_mul ht
  refine ⟨fun i f ch r => val l[i] f x r ch, fun i => ?_, fun f ch r hch => ?_⟩
  · obtain ⟨-, t', ht', -⟩ := hi i
    exact logLik_of ht' x
  · have hck' : checkMul false (List.ofFn l.get) = .ok () := by rw [List.ofFn_get]; exact hck
    beta_reduce
    rw [val_mul_gen hck' f hch]
    refine sum_congr rfl fun i _ => ?_
    rw [if_neg (show ¬ (false = true ∧ F (l.get i) = 1) by simp)]
    unfold chan
    rw [counts_getD]
    rfl

/-- **C69 (OuterProduct: value).** If `log_likelihood` of an outer product returns, then so does that of every input, and
the channel numbered by the tuple `idx` in row-major order is the sum over the inputs `i` of channel `idx[i]`; an input
with one feature contributes it to every feature. -/
theorem C69_outer_log_likelihood {l : List Mod} {m : Mod} (h : mkMul true l = .ok m) {x : Row} {T}
    (hT : logLik m x = .ok T) : ∃ Ts : Fin l.length → ℕ → ℕ → ℕ → LogV, (∀ i, logLik l[i] x = .ok (Ts i)) ∧
      C m = (l.map C).prod ∧ ∀ idx, Outer.ValidTuple (l.map C) idx → ∀ f r,
        T f (Outer.rowMajor (l.map C) idx) r =
          ∑ i : Fin l.length, Ts i (if F l[i] = 1 then 0 else f) (idx.getD i 0) r := by
  obtain ⟨hck, rfl⟩ := mkMul_ok h
  obtain ⟨⟨t, ht⟩, rfl⟩ := logLik_ok hT
  obtain ⟨-, hi⟩ := tensor_mul ht
  have ec : C (mul true l.length l.get) = (l.map C).prod := by
    rw [C, if_pos rfl, ofFn_get_map]
    exact (Outer.C19_unravel_bijective _).1
  refine ⟨fun i f ch r => val l[i] f x r ch, fun i => ?_, ec, fun idx hidx f r => ?_⟩
  · obtain ⟨-, t', ht', -⟩ := hi i
    exact logLik_of ht' x
  · have hck' : checkMul true (List.ofFn l.get) = .ok () := by rw [List.ofFn_get]; exact hck
    have hrow := Outer.C19_unravel_row_major _ _ hidx
    have hlt : Outer.rowMajor (l.map C) idx < C (mul true l.length l.get) := by
      have := (List.getElem?_eq_some_iff.1 hrow).1
      rw [Outer.table_length] at this
      rw [ec]; exact this
    beta_reduce
    rw [val_mul_gen hck' f hlt]
    refine sum_congr rfl fun i _ => ?_
    have e1 : (if true = true ∧ F (l.get i) = 1 then 0 else f) = if F l[i] = 1 then 0 else f := by simp
    rw [e1]
    have e2 : chan true (counts l.get) (Outer.rowMajor (l.map C) idx) i = idx.getD i 0 := by
      have hc : counts l.get = l.map C := ofFn_get_map l C
      have h3 := tuple_getD hidx (i := i) (by simp)
      unfold chan
      have h4 : (l.map C).getD i 0 = C (l.get i) := by rw [← hc, counts_getD]
      rw [hc]
      by_cases h1 : (l.map C).getD i 0 = 1
      · rw [if_pos h1]; omega
      · rw [if_neg h1, if_pos rfl, List.getD_eq_getElem?_getD (l := Outer.unravelTable (l.map C)), hrow]; rfl
    rw [e2]
    rfl

/-! ### Normalisation and missing values -/

theorem repIn_of_tensorR {m : Mod} {T r : ℕ} (h : tensorR m = some T) (hr : T = 1 ∨ r < T) : RepIn r m := by
  induction m generalizing T with
  | base c => exact Circ.repIn_of_tensorR h hr
  | cat1 n cs ih =>
    simp only [tensorR] at h
    split_ifs at h with hn hc
    exact fun i => ih i ((hc i).trans h) hr
  | cat2 n cs ih =>
    simp only [tensorR] at h
    split_ifs at h with hn hc
    exact fun i => ih i ((hc i).trans h) hr
  | fold m ih => exact ih h hr
  | mul outer n cs ih =>
    obtain ⟨-, hi⟩ := tensor_mul h
    intro i
    obtain ⟨-, t, ht, e⟩ := hi i
    refine ih i ht ?_
    rcases e with rfl | rfl
    · exact hr
    · exact .inl rfl
  | sum m Co R θ ih =>
    simp only [tensorR] at h
    split at h
    · cases h
    rename_i T' hT'
    split_ifs at h with h1 h2 h3
    · cases h; subst h1; exact ⟨ih hT' hr, hr⟩
    · cases h; exact ⟨ih hT' (.inl h2), hr⟩
    · cases h; exact ⟨ih hT' hr, .inl h3⟩

/-- **C69 (missing values).** For every module built from accepted arguments: whenever `log_likelihood` returns, a NaN in
any set `S` of variables of feature `f` gives the exact integral over these variables. -/
theorem C69_nan_is_integral [∀ v, SigmaFinite (μ v)] {m : Mod} (h : Good μ m) {T : ℕ} (hT : tensorR m = some T)
    {f ch r : ℕ} (hf : f < F m) (hch : ch < C m) (hr : r < T) (S : Finset Var) (hS : S ⊆ fs m f) (x : Var → ℝ) :
    (∫⋯∫⁻_S, (fun y => ENNReal.ofReal (expL (val m f (fun v => some (y v)) r ch))) ∂μ) x =
      ENNReal.ofReal (expL (val m f (maskRow S x) r ch)) :=
  (fam h (repIn_of_tensorR hT (.inr hr))).marginal hf hch S hS x

/-- **C69 (normalisation).** Every channel of every feature is a normalised density of the variables of that feature; the
variables of the features are pairwise disjoint and together are the scope. -/
theorem C69_normalised [∀ v, SigmaFinite (μ v)] {m : Mod} (h : Good μ m) {T : ℕ} (hT : tensorR m = some T)
    (h1 : 1 ≤ T) :
    (∀ f < F m, ∀ ch < C m, ∀ r < T, ∀ x : Var → ℝ,
      (∫⋯∫⁻_(fs m f), (fun y => ENNReal.ofReal (expL (val m f (fun v => some (y v)) r ch))) ∂μ) x = 1) ∧
    (∀ f < F m, ∀ g < F m, f ≠ g → Disjoint (fs m f) (fs m g)) ∧
    ∀ v, v ∈ (scope m).query ↔ ∃ f < F m, v ∈ fs m f := by
  refine ⟨fun f hf ch hch r hr x => ?_, fun f hf g hg hfg => ?_, (scope_facts h).2.2⟩
  · have hF := fam h (repIn_of_tensorR hT (.inr hr))
    rw [C69_nan_is_integral h hT hf hch hr _ (Finset.Subset.refl _) x, hF.miss f hf ch hch, ENNReal.ofReal_one]
    intro v hv
    simp [maskRow, hv]
  · exact (fam h (repIn_of_tensorR hT (r := 0) (by omega))).disj f hf g hg hfg

/-! ### Sampling -/

theorem mem_act_all {m : Mod} (h : Good μ m) (v : Var) :
    v ∈ actU (F m) (fs m) (fun _ => true) ↔ v ∈ (scope m).query := by
  rw [(scope_facts h).2.2 v]
  simp [actU]

theorem fills {m : Mod} (h : Good μ m) (hp : PosCh m) (hr : RepS 0 m) {ev : Option Row}
    (hev : ∀ e, ev = some e → Live e 0 m) (y : Row) :
    ¬ Fails (sample ev 0 m (fun _ => 0) (fun _ => true) y) ∧
      ∀ z, Outcome (sample ev 0 m (fun _ => 0) (fun _ => true) y) z → Completes m y z := by
  obtain ⟨h1, h2⟩ := sample_ok h hp hr hev (fun _ => 0) (fun _ => true) (fun _ _ => posC h hp)
  refine ⟨h1 y, fun z hz => ?_⟩
  obtain ⟨a, b⟩ := h2 y z hz
  refine ⟨fun v hv => a v ((mem_act_all h v).2 hv), fun v t hv => ?_, fun v hv => ?_⟩
  · rw [← hv]; exact b v fun hh => by simp [hv] at hh
  · exact b v fun hh => hv ((mem_act_all h v).1 hh.1)

/-- **C69 (sampling fills).** `sample(data=y)` never raises, keeps the observed cells, fills every missing variable of
the scope and touches nothing else; the same holds for `sample_with_evidence(y)` if `log_likelihood` returns and no Sum
unit has probability zero on `y`. -/
theorem C69_sample_fills {m : Mod} (h : Good μ m) (hp : PosCh m) (hr : RepS 0 m) (y : Row) :
    (¬ Fails (sampleData m y) ∧ ∀ z, Outcome (sampleData m y) z → Completes m y z) ∧
    ((∃ T, logLik m y = .ok T) → Live y 0 m →
      ¬ Fails (sampleWithEvidence m y) ∧ ∀ z, Outcome (sampleWithEvidence m y) z → Completes m y z) := by
  refine ⟨fills h hp hr (fun e he => by cases he) y, ?_⟩
  rintro ⟨T, hT⟩ hl
  unfold sampleWithEvidence
  rw [hT]
  exact fills h hp hr (fun e he => by cases he; exact hl) y

theorem law_all {m : Mod} (h : Good μ m) (hp : PosCh m) (hr : RepS 0 m) {ev : Option Row} {e : Row}
    (hE : Conv.Net.Ev ev e) (hl : Live e 0 m) (hpos : likelihood m e ≠ 0) (x : Row) (hx : Completes m e x) :
    (sample ev 0 m (fun _ => 0) (fun _ => true) e).prob x = ENNReal.ofReal (likelihood m x / likelihood m e) := by
  unfold likelihood at hpos
  have := sample_law hE h hp hr hl (fun _ => 0) (fun _ => true) (fun _ _ => posC h hp)
    (fun f hf _ => Finset.prod_ne_zero_iff.1 hpos f (Finset.mem_range.2 hf)) e x (fun _ _ => rfl)
    (fun v hv => hx.1 v ((mem_act_all h v).1 hv))
    (fun v hv => by
      by_cases hvs : v ∈ (scope m).query
      · rcases hev : e v with _ | t
        · exact absurd ⟨(mem_act_all h v).2 hvs, hev⟩ hv
        · exact hx.2.1 v t hev
      · exact hx.2.2 v hvs)
  rw [this]
  unfold ratiosU likelihood
  rw [← Finset.prod_div_distrib,
    ENNReal.ofReal_prod_of_nonneg fun f _ => div_nonneg (expL_nonneg _) (expL_nonneg _)]
  simp

/-- **C69 (sampling).** For discrete leaves `sample()` with nothing observed returns the complete row `x` with
probability exactly `p(x)`. -/
theorem C69_sample_law {m : Mod} (h : Good μ m) (hp : PosCh m) (hr : RepS 0 m) (x : Row)
    (hx : Completes m (fun _ => none) x) :
    (sampleData m fun _ => none).prob x = ENNReal.ofReal (likelihood m x) := by
  have h1 : likelihood m (fun _ => none) = 1 :=
    Finset.prod_eq_one fun f hf => (fam h hr.repIn).miss f (mem_range.1 hf) 0 (posC h hp) _ fun _ _ => rfl
  have := law_all h hp hr (ev := none) (.inr ⟨rfl, fun _ => rfl⟩) (live_missing h hr fun _ => rfl) (by rw [h1]; simp) x hx
  rw [h1, div_one] at this
  exact this

/-- **C69 (conditional sampling).** `sample_with_evidence(e)` returns the completion `x` of `e` with probability
`p(x) / p(e)`, if no Sum unit has probability zero on `e`. -/
theorem C69_sample_conditional {m : Mod} (h : Good μ m) (hp : PosCh m) (hr : RepS 0 m) (e : Row)
    (hT : ∃ T, logLik m e = .ok T) (hl : Live e 0 m) (hpos : likelihood m e ≠ 0) (x : Row) (hx : Completes m e x) :
    (sampleWithEvidence m e).prob x = ENNReal.ofReal (likelihood m x / likelihood m e) := by
  obtain ⟨T, hT⟩ := hT
  unfold sampleWithEvidence
  rw [hT]
  exact law_all h hp hr (.inl rfl) hl hpos x hx

/-! ### Findings: the documented broadcasting of features -/

/-- **C69 (finding).** As soon as one input of an ElementwiseProduct has more than one channel, the constructor looks at
no feature count: inputs with any numbers of features are accepted. -/
theorem C69_elementwise_any_features {l : List Mod} (h : ∀ m ∈ l, Good μ m) (hd : DisjointScopes l) {k : ℕ} (hk : 1 < k)
    (hC : ∀ m ∈ l, C m = 1 ∨ C m = k) (hex : ∃ m ∈ l, C m = k) : ∃ m, mkMul false l = .ok m := by
  obtain ⟨c, hc, hck⟩ := hex
  have hne : l ≠ [] := List.ne_nil_of_mem hc
  obtain ⟨b, hb, hi⟩ := disjoint_iff h
  obtain rfl := hi.2 hd
  obtain ⟨s, hs⟩ := join_ok h hne
  have hmax : (l.map C).foldr max 0 = k := by
    obtain ⟨a, ha, e⟩ := List.mem_map.1 (foldr_max_mem (l := l.map C) (by simpa using hne))
    have := le_foldr_max (List.mem_map.2 ⟨c, hc, rfl⟩ : C c ∈ l.map C)
    rcases hC a ha with h1 | h1 <;> omega
  have hall : (l.map C).all (fun c => c == 1 || c == (l.map C).foldr max 0) = true := by
    rw [List.all_eq_true]
    intro c hc
    obtain ⟨a, ha, rfl⟩ := List.mem_map.1 hc
    simp only [Bool.or_eq_true, beq_iff_eq, hmax]
    exact hC a ha
  have hsh : shapesElem (l.map F) (l.map C) = true := by
    unfold shapesElem
    simp only [Bool.or_eq_true]
    left; right
    rw [beq_iff_eq]
    refine filter_two (k := k) (List.mem_map.2 ⟨c, hc, hck⟩) (by omega) ?_
    intro x hx
    obtain ⟨b, hb, rfl⟩ := List.mem_map.1 hx
    exact hC b hb
  refine ⟨mul false l.length l.get, ?_⟩
  unfold mkMul checkMul
  simp only [bind, Except.bind, pure, Except.pure, throw, throwThe, MonadExceptOf.throw, hb, hs, hall, hsh]
  simp [hne]

/-- **C69 (finding).** An ElementwiseProduct whose inputs differ in their number of features is useless: every
`log_likelihood` raises (`torch.stack`). -/
theorem C69_elementwise_broadcast_raises {l : List Mod} {m : Mod} (h : mkMul false l = .ok m) (hF : ¬ SameFeatures l) (x : Row) :
    logLik m x = .error .runtimeError ∧ sampleWithEvidence m x = .fail .runtimeError := by
  obtain ⟨hck, rfl⟩ := mkMul_ok h
  have : tensorR (mul false l.length l.get) = none := by
    cases ht : tensorR (mul false l.length l.get) with
    | none => rfl
    | some t =>
      obtain ⟨-, hi⟩ := tensor_mul ht
      refine absurd (fun a ha b hb => ?_) hF
      obtain ⟨i, rfl⟩ := List.mem_iff_get.1 ha
      obtain ⟨j, rfl⟩ := List.mem_iff_get.1 hb
      have e1 := (hi i).1
      have e2 := (hi j).1
      simp only [Bool.false_eq_true, false_and, or_false] at e1 e2
      rw [e1, e2]
  have hl : logLik (mul false l.length l.get) x = .error .runtimeError := by unfold logLik; rw [this]
  refine ⟨hl, ?_⟩
  unfold sampleWithEvidence
  rw [hl]

theorem fails_or_outcome {α : Type} (p : Prog α) : Fails p ∨ ∃ a, Outcome p a := by
  induction p with
  | ret a => exact .inr ⟨a, .ret⟩
  | fail e => exact .inl .fail
  | choose n l k ih =>
    by_cases hd : Prog.Dead n l
    · exact .inl (.dead hd)
    · have : ∃ i < n, l i ≠ ⊥ := by
        unfold Prog.Dead at hd
        push Not at hd
        exact hd
      obtain ⟨i, hi, -⟩ := this
      rcases ih i with h | ⟨a, h⟩
      · exact .inl (.choose hi h)
      · exact .inr ⟨a, .choose hd hi h⟩
  | draw d k ih =>
    rcases ih 0 with h | ⟨a, h⟩
    · exact .inl (.draw h)
    · exact .inr ⟨a, .draw h⟩

theorem fails_bind_left {α β : Type} {p : Prog α} {g : α → Prog β} (h : Fails p) : Fails (p.bind g) := by
  induction h with
  | fail => exact .fail
  | dead hd => exact .dead hd
  | choose hi _ ih => exact .choose hi ih
  | draw _ ih => exact .draw ih

theorem fails_bind_right {α β : Type} {p : Prog α} {g : α → Prog β} {a : α} (h : Outcome p a) (hg : Fails (g a)) :
    Fails (p.bind g) := by
  induction h with
  | ret => exact hg
  | choose _ hi _ ih => exact .choose hi (ih hg)
  | draw _ ih => exact .draw (ih hg)

theorem seq_fails {L : List (Row → Prog Row)} {s : Row → Prog Row} (hs : s ∈ L) (h : ∀ y, Fails (s y)) (y : Row) :
    Fails (seqAll L y) := by
  induction L generalizing y with
  | nil => cases hs
  | cons a L ih =>
    rw [seqAll]
    rcases List.mem_cons.1 hs with rfl | hs
    · exact fails_bind_left (h y)
    · rcases fails_or_outcome (a y) with h1 | ⟨z, h1⟩
      · exact fails_bind_left h1
      · exact fails_bind_right h1 (ih hs z)

/-- **C69 (finding).** For both products, sampling always raises if the product has more than one feature and some input
has another number of features - also where `log_likelihood` works (an OuterProduct broadcasts a one-feature input). -/
theorem C69_broadcast_sampling_raises {l : List Mod} {m : Mod} {outer : Bool} (h : mkMul outer l = .ok m) (h1 : F m ≠ 1)
    {a : Mod} (ha : a ∈ l) (hF : F a ≠ F m) (ev : Option Row) (r : ℕ) (ch : ℕ → ℕ) (mask : ℕ → Bool) (y : Row) :
    Fails (sample ev r m ch mask y) := by
  obtain ⟨hck, rfl⟩ := mkMul_ok h
  obtain ⟨i, rfl⟩ := List.mem_iff_get.1 ha
  rw [sample]
  beta_reduce
  split
  · exact .fail
  split
  · exact .fail
  refine seq_fails (List.mem_ofFn.2 ⟨i, rfl⟩) ?_ y
  intro z
  beta_reduce
  simp only [hF, h1, if_false]
  exact .fail

/-- **C69 (finding).** `OuterProduct([m])` raises TypeError unless `m` has exactly one feature (`ocs ** None`). -/
theorem C69_outer_single_raises {a : Mod} (h : Good μ a) (h1 : F a ≠ 1) : mkMul true [a] = .error .typeError := by
  obtain ⟨b, hb, hi⟩ := disjoint_iff (l := [a]) (μ := μ) (by simpa using h)
  obtain rfl := hi.2 (by intro i j hi hj hij; simp at hi hj; omega)
  obtain ⟨s, hs⟩ := join_ok (l := [a]) (μ := μ) (by simpa using h) (by simp)
  unfold mkMul checkMul
  simp only [bind, Except.bind, pure, Except.pure, throw, throwThe, MonadExceptOf.throw, hb, hs]
  simp [h1]

end Mod

end Verif.LP

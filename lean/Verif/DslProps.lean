import Verif.Dsl
import Verif.BuildKit

/-!
# C39: DSL expressions denote what the algebra says

Specification first (`val`, `WellFormed`), then the theorems.
-/

namespace Verif.Dsl

open Verif Circ Build

/-! ### Specification -/

/-- Likelihood of a module at row `x`, repetition `r`, channel `k`: the product over its features. -/
noncomputable def dens (c : Circ) (x : Row) (r k : ℕ) : ℝ := ∏ f ∈ Finset.range (F c), expL (featAt (den c) f x r k)

/-- What the algebra says an expression denotes: `*` multiplies, `w1 * e1 + ... + wn * en` is the mixture with the
weights divided by their sum. -/
noncomputable def Expr.val : Expr → Row → ℕ → ℕ → ℝ
  | .term c, x, r, k => dens c x r k
  | .prod _ es, x, r, k => ∏ i, (es i).val x r k
  | .sum _ ws es, x, r, _ => (∑ i, ws i * (es i).val x r 0) / ∑ i, ws i
  | .weighted _ e, x, r, k => e.val x r k

/-- Number of features an expression stands for: one for a product, that of its terms for a mixture. -/
def Expr.feats : Expr → ℕ
  | .term c => F c
  | .prod _ _ => 1
  | .sum n _ es => if h : 0 < n then (es ⟨0, h⟩).feats else 0
  | .weighted _ e => e.feats

/-- The same, feature by feature. -/
noncomputable def Expr.fval : Expr → Row → ℕ → ℕ → ℕ → ℝ
  | .term c, x, r, k, f => expL (featAt (den c) f x r k)
  | .prod _ es, x, r, k, _ => ∏ i, ∏ f ∈ Finset.range (es i).feats, (es i).fval x r k f
  | .sum _ ws es, x, r, _, f => (∑ i, ws i * (es i).fval x r 0 f) / ∑ i, ws i
  | .weighted _ e, x, r, k, f => e.fval x r k f

/-- Number of channels: that of the factors of a product, one for a mixture. -/
def Expr.chans : Expr → ℕ
  | .term c => C c
  | .prod n es => if h : 0 < n then (es ⟨0, h⟩).chans else 0
  | .sum _ _ _ => 1
  | .weighted _ e => e.chans

/-- Number of repetitions. -/
def Expr.reps : Expr → ℕ
  | .term c => R c
  | .prod n es => if h : 0 < n then (es ⟨0, h⟩).reps else 0
  | .sum n _ es => if h : 0 < n then (es ⟨0, h⟩).reps else 0
  | .weighted _ e => e.reps

/-- The variables: the union over the factors of a product, those of the (first) term for a mixture. -/
def Expr.vars : Expr → Set Var
  | .term c => {v | v ∈ (scope c).query}
  | .prod _ es => {v | ∃ i, v ∈ (es i).vars}
  | .sum n _ es => if h : 0 < n then (es ⟨0, h⟩).vars else ∅
  | .weighted _ e => e.vars

/-- Compatible expressions: factors share no variable, terms have the same variables and one channel, shapes agree,
weights are positive, and no weighted factor is used where an unweighted one is needed. -/
def Expr.WellFormed : Expr → Prop
  | .term _ => True
  | .prod n es => 2 ≤ n ∧ (∀ i, (es i).WellFormed) ∧ (∀ i j, i ≠ j → Disjoint (es i).vars (es j).vars) ∧
      (∀ i j, (es i).chans = (es j).chans) ∧ ∀ i j, (es i).reps = (es j).reps
  | .sum n ws es => 2 ≤ n ∧ (∀ i, 0 < ws i) ∧ (∀ i, (es i).WellFormed) ∧ (∀ i j, (es i).vars = (es j).vars) ∧
      (∀ i j, (es i).feats = (es j).feats) ∧ (∀ i, (es i).chans = 1) ∧ ∀ i j, (es i).reps = (es j).reps
  | .weighted _ _ => False

/-- Every module in the expression satisfies `P`. -/
def Expr.All (P : Circ → Prop) : Expr → Prop
  | .term c => P c
  | .prod _ es => ∀ i, (es i).All P
  | .sum _ _ es => ∀ i, (es i).All P
  | .weighted _ e => e.All P

/-- Every term of a mixture stands for a single feature (a univariate leaf, a product, or a mixture of those). -/
def Expr.Single : Expr → Prop
  | .term _ => True
  | .prod _ es => ∀ i, (es i).Single
  | .sum _ _ es => ∀ i, (es i).Single ∧ (es i).feats = 1
  | .weighted _ e => e.Single

/-! ### Lists of modules -/

theorem seqAll_ok {n : ℕ} {g : Fin n → Except Exc Circ} {ms : List Circ} (h : seqAll (List.ofFn g) = .ok ms) :
    ∃ cs : Fin n → Circ, ms = List.ofFn cs ∧ ∀ i, g i = .ok (cs i) := by
  induction n generalizing ms with
  | zero =>
    rw [List.ofFn_zero] at h
    cases h
    exact ⟨fun i => i.elim0, by simp, fun i => i.elim0⟩
  | succ n ih =>
    rw [List.ofFn_succ] at h
    cases h0 : g 0 with
    | error e => rw [h0] at h; cases h
    | ok m =>
      cases h1 : seqAll (List.ofFn fun i : Fin n => g i.succ) with
      | error e => simp [seqAll, h0, h1, bind, Except.bind] at h
      | ok ms' =>
        simp only [seqAll, h0, h1, bind, Except.bind, pure, Except.pure, Except.ok.injEq] at h
        obtain ⟨cs, hcs, hg⟩ := ih h1
        refine ⟨Fin.cons m cs, ?_, fun i => ?_⟩
        · rw [List.ofFn_succ, ← h, hcs]; simp
        · refine Fin.cases ?_ (fun j => ?_) i
          · simpa using h0
          · simpa using hg j

theorem seqAll_of {n : ℕ} {g : Fin n → Except Exc Circ} {cs : Fin n → Circ} (h : ∀ i, g i = .ok (cs i)) :
    seqAll (List.ofFn g) = .ok (List.ofFn cs) := by
  induction n with
  | zero => simp [seqAll]
  | succ n ih =>
    have h2 := ih (g := fun i => g i.succ) (cs := fun i => cs i.succ) fun i => h i.succ
    rw [List.ofFn_succ, List.ofFn_succ]
    simp only [seqAll, h 0, h2, bind, Except.bind, pure, Except.pure]

theorem allSame_iff (f : Circ → ℕ) (ms : List Circ) : allSame f ms = true ↔ ∀ a ∈ ms, ∀ b ∈ ms, f a = f b := by
  rcases ms with _ | ⟨a, l⟩
  · simp [allSame]
  · simp only [allSame, List.head?_cons, Option.map_some, Option.getD_some, List.all_eq_true, beq_iff_eq]
    constructor
    · intro h x hx y hy; rw [h x hx, h y hy]
    · intro h x hx; exact h x hx a (by simp)

/-- Two modules without common variables. -/
def Apart (a b : Circ) : Prop := ∀ v, v ∈ (scope a).query → v ∉ (scope b).query

theorem validateProduct_iff {ms : List Circ} (ha : ∀ m ∈ ms, Accepted m) :
    validateProduct ms = .ok () ↔ 2 ≤ ms.length ∧ ms.Pairwise Apart ∧ (∀ a ∈ ms, ∀ b ∈ ms, C a = C b) ∧
      ∀ a ∈ ms, ∀ b ∈ ms, R a = R b := by
  have hval : ∀ t ∈ ms.map scope, Scope.Valid t := by
    intro t ht; obtain ⟨m, hm, rfl⟩ := List.mem_map.1 ht; exact (scope_facts (ha m hm)).1
  obtain ⟨b, hb, hiff⟩ := Scope.C03_allPairwiseDisjoint (l := ms.map scope) fun t ht => reachable_of_valid (hval t ht)
  have hpw : b = true ↔ ms.Pairwise Apart := by
    rw [hiff, List.pairwise_iff_getElem]
    constructor
    · intro h i j hi hj hij v
      have := h i j (by simpa using hi) (by simpa using hj) hij v
      simpa using this
    · intro h i j hi hj hij v
      have := h i j (by simpa using hi) (by simpa using hj) hij v
      simpa using this
  rw [← allSame_iff C, ← allSame_iff R, ← hpw]
  unfold validateProduct
  simp only [hb, bind, Except.bind, pure, Except.pure, throw, throwThe, MonadExceptOf.throw]
  by_cases h1 : ms.length < 2
  · simp [h1]
  · cases b <;> cases allSame C ms <;> cases allSame R ms <;> simp [h1]; omega

theorem validateSum_iff {ms : List Circ} (ha : ∀ m ∈ ms, Accepted m) :
    validateSum ms = .ok () ↔ 2 ≤ ms.length ∧
      (∀ a ∈ ms, ∀ b ∈ ms, ∀ v, v ∈ (scope a).query ↔ v ∈ (scope b).query) ∧ (∀ a ∈ ms, ∀ b ∈ ms, F a = F b) ∧
        (∀ a ∈ ms, C a = 1) ∧ ∀ a ∈ ms, ∀ b ∈ ms, R a = R b := by
  have heq : Scope.allEqual (ms.map scope) = true ↔
      ∀ a ∈ ms, ∀ b ∈ ms, ∀ v, v ∈ (scope a).query ↔ v ∈ (scope b).query := by
    rw [Scope.C03_allEqual]
    constructor
    · intro h a haa b hbb
      exact ((Scope.pyEq_iff _ _).1 (h _ (List.mem_map_of_mem haa) _ (List.mem_map_of_mem hbb))).1
    · intro h s hs t ht
      obtain ⟨a, haa, rfl⟩ := List.mem_map.1 hs
      obtain ⟨b, hbb, rfl⟩ := List.mem_map.1 ht
      refine (Scope.pyEq_iff _ _).2 ⟨h a haa b hbb, fun v => ?_⟩
      rw [(scope_facts (ha a haa)).2.1, (scope_facts (ha b hbb)).2.1]
  have hC : (ms.all fun m => C m == 1) = true ↔ ∀ a ∈ ms, C a = 1 := by simp
  rw [← allSame_iff F, ← allSame_iff R, ← hC, ← heq]
  unfold validateSum
  simp only [bind, Except.bind, pure, Except.pure, throw, throwThe, MonadExceptOf.throw]
  by_cases h1 : ms.length < 2
  · simp [h1]
  · cases Scope.allEqual (ms.map scope) <;> cases allSame F ms <;> cases (ms.all fun m => C m == 1) <;>
      cases allSame R ms <;> simp [h1]; omega

/-! ### Products -/

theorem expL_flatten {l : List Circ} (x : Row) (r k : ℕ) :
    expL ((((l.map den).flatten).map fun u => u.val x r k).sum) = (l.map fun m => dens m x r k).prod := by
  induction l with
  | nil => simp
  | cons a l ih =>
    simp only [List.map_cons, List.flatten_cons, List.map_append, List.sum_append, List.prod_cons]
    rw [expL_add, ih]
    congr 1
    unfold dens
    rw [← expL_featAt_prod]
    rfl

/-- `Product(ms)` of validated modules. -/
theorem mkProd_valid {ms : List Circ} (ha : ∀ m ∈ ms, Accepted m) (hv : validateProduct ms = .ok ()) :
    mkProd ms = .ok (prod (cat1 ms.length ms.get)) ∧ Accepted (prod (cat1 ms.length ms.get)) ∧
      (∀ m ∈ ms, C (prod (cat1 ms.length ms.get)) = C m) ∧ (∀ m ∈ ms, R (prod (cat1 ms.length ms.get)) = R m) ∧
      (∀ v, v ∈ (scope (prod (cat1 ms.length ms.get))).query ↔ ∃ m ∈ ms, v ∈ (scope m).query) ∧
      ∀ x r k, dens (prod (cat1 ms.length ms.get)) x r k = (ms.map fun m => dens m x r k).prod := by
  obtain ⟨hlen, hd, hC, hR⟩ := (validateProduct_iff ha).1 hv
  rcases hms : ms with _ | ⟨a, _ | ⟨b, l⟩⟩
  · rw [hms] at hlen; simp at hlen
  · rw [hms] at hlen; simp at hlen
  rw [← hms]
  have hne : ms ≠ [] := by rw [hms]; simp
  have ham : a ∈ ms := by rw [hms]; simp
  have hpos : 0 < ms.length := by omega
  have hck : check1 ms = .ok () :=
    check1_of hne (K := C a) (fun m hm => hC m hm a ham) (fun m hm => (scope_facts (ha m hm)).1) hd
  have hacc : Accepted (cat1 ms.length ms.get) :=
    ⟨fun i => ha _ (List.get_mem ms i), by rw [List.ofFn_get]; exact hck⟩
  refine ⟨?_, hacc, fun m hm => ?_, fun m hm => ?_, fun v => ?_, fun x r k => ?_⟩
  · have hcat : mkCat 1 ms = .ok (cat1 ms.length ms.get) := by
      unfold mkCat
      simp only [if_true, bind, Except.bind, pure, Except.pure, hck]
    have : mkProd ms = (mkCat 1 ms >>= fun c => pure (prod c)) := by rw [hms]; rfl
    rw [this, hcat]; rfl
  · simp only [C, hpos, dif_pos]
    exact hC _ (List.get_mem ms _) m hm
  · simp only [R, hpos, dif_pos]
    exact hR _ (List.get_mem ms _) m hm
  · obtain ⟨s, hs, -, hq, -⟩ := Scope.joinAll_ok (ms.map scope) (by simpa using hne) (fun t ht => by
      obtain ⟨m, hm, rfl⟩ := List.mem_map.1 ht; exact (scope_facts (ha m hm)).1)
    have e : (List.ofFn fun i => scope (ms.get i)) = ms.map scope := by
      apply List.ext_getElem
      · simp
      · intro i h1 h2; simp
    simp only [scope, e, hs, hq]
    simp
  · unfold dens
    rw [show F (prod (cat1 ms.length ms.get)) = 1 from rfl, Finset.prod_range_one]
    have e : featAt (den (prod (cat1 ms.length ms.get))) 0 x r k =
      ((den (cat1 ms.length ms.get)).map fun u => u.val x r k).sum := rfl
    rw [e, den_cat1_get, expL_flatten]
    rfl

/-! ### Mixtures -/

theorem makeSumWeights_iff {ws : List ℝ} (hne : ws ≠ []) (Fn Rn : ℕ) :
    (∃ w, makeSumWeights ws Fn Rn = .ok w) ↔ ∀ a ∈ ws, 0 < a := by
  unfold makeSumWeights
  by_cases h : ∀ a ∈ ws, 0 < a
  · rw [if_neg (not_not.2 h)]
    have : 0 < ws.sum := List.sum_pos ws h hne
    rw [if_neg (not_le.2 this)]
    exact ⟨fun _ => h, fun _ => ⟨_, rfl⟩⟩
  · rw [if_pos h]
    exact ⟨fun ⟨_, hw⟩ => (by cases hw), fun hw => absurd hw h⟩

theorem sum_map_ones (ms : List Circ) (h : ∀ m ∈ ms, C m = 1) : (ms.map C).sum = ms.length := by
  induction ms with
  | nil => rfl
  | cons a l ih =>
    rw [List.map_cons, List.sum_cons, h a (by simp), ih fun m hm => h m (by simp [hm]), List.length_cons]; omega

/-- `Sum(ms, weights)` of validated modules with the DSL's weights. -/
theorem mkSum_valid {ms : List Circ} {ws : List ℝ} (ha : ∀ m ∈ ms, Accepted m) (hv : validateSum ms = .ok ())
    (hp : ∀ a ∈ ws, 0 < a) (hl : ws.length = ms.length) {w : Weights}
    (hw : makeSumWeights ws ((ms.head?.map F).getD 0) ((ms.head?.map R).getD 0) = .ok w) :
    ∃ θ Rn, mkSum ms w = .ok (sum (cat2 ms.length ms.get) 1 Rn θ) ∧ Accepted (sum (cat2 ms.length ms.get) 1 Rn θ) ∧
      (∀ m ∈ ms, Rn = R m) ∧ (∀ m ∈ ms, F (cat2 ms.length ms.get) = F m) ∧
      (∀ m ∈ ms, ∀ v, v ∈ (scope (cat2 ms.length ms.get)).query ↔ v ∈ (scope m).query) ∧
      (∀ f < F (cat2 ms.length ms.get), ∀ ci < C (cat2 ms.length ms.get), ∀ co < 1, ∀ r < Rn, θ f ci co r ≠ ⊥) ∧
      ∀ x, ∀ f < F (cat2 ms.length ms.get), ∀ r < Rn, expL (featAt (den (sum (cat2 ms.length ms.get) 1 Rn θ)) f x r 0) =
        (∑ i : Fin ms.length, ws.getD i 0 * expL (featAt (den (ms.get i)) f x r 0)) / ws.sum := by
  obtain ⟨hlen, hs, hF, hC, hR⟩ := (validateSum_iff ha).1 hv
  rcases hms : ms with _ | ⟨a, _ | ⟨b, l⟩⟩
  · rw [hms] at hlen; simp at hlen
  · rw [hms] at hlen; simp at hlen
  rw [← hms]
  have hne : ms ≠ [] := by rw [hms]; simp
  have ham : a ∈ ms := by rw [hms]; simp
  have hhead : ms.head? = some a := by rw [hms]; rfl
  have hpos : 0 < ms.length := by omega
  have hwne : ws ≠ [] := by intro h; rw [h] at hl; simp at hl; omega
  have htot : 0 < ws.sum := List.sum_pos ws hp hwne
  have hck : check2 ms = .ok () :=
    check2_of hne (K := F a) (fun m hm => hF m hm a ham) (fun m hm => (scope_facts (ha m hm)).2.1) hs
  have hcat : mkCat 2 ms = .ok (cat2 ms.length ms.get) := by
    unfold mkCat
    simp only [show ¬ ((2 : ℤ) = 1) by norm_num, if_false, if_true, bind, Except.bind, pure, Except.pure, hck]
  set c := cat2 ms.length ms.get with hc
  have hcacc : Accepted c := ⟨fun i => ha _ (List.get_mem ms i), by rw [List.ofFn_get]; exact hck⟩
  have hcF : ∀ m ∈ ms, F c = F m := by
    intro m hm
    simp only [hc, F, hpos, dif_pos]
    exact hF _ (List.get_mem ms _) m hm
  have hcC : C c = ms.length := by
    rw [← sum_map_ones ms hC]
    simp only [hc, C]
    congr 1
    apply List.ext_getElem
    · simp
    · intro i h1 h2; simp
  have hwd : w = { Fw := F a, Ci := ws.length, Co := 1, R := R a, val := fun _ ci _ _ => ws.getD ci 0 / ws.sum } := by
    unfold makeSumWeights at hw
    rw [if_neg (not_not.2 hp), if_neg (not_le.2 htot), hhead] at hw
    injection hw with hw
    exact hw.symm
  have hsum1 : ∑ ci ∈ Finset.range ws.length, ws.getD ci 0 / ws.sum = 1 := by
    rw [← Finset.sum_div, sum_getD, div_self htot.ne']
  have hset : ∃ θ, setWeights c w.Co w.R w = .ok θ := by
    rw [C08_setter_accepts_iff, hwd]
    refine ⟨⟨(hcF a ham).symm, by rw [hcC, ← hl], rfl, rfl⟩, ?_, ?_⟩
    · intro f _ ci hci co _ r _
      have hci' : ci < ws.length := hci
      show 0 < ws.getD ci 0 / ws.sum
      rw [List.getD_eq_getElem _ _ hci']
      exact div_pos (hp _ (List.getElem_mem _)) htot
    · intro f _ co _ r _
      show |∑ ci ∈ Finset.range ws.length, ws.getD ci 0 / ws.sum - 1| ≤ _
      rw [hsum1]; norm_num
  obtain ⟨θ, hθ⟩ := hset
  have hfin : ∀ f < F c, ∀ ci < C c, ∀ co < w.Co, ∀ r < w.R, θ f ci co r ≠ ⊥ := by
    have hw' := (C08_setter_accepts_iff c w.Co w.R w).1 ⟨θ, hθ⟩
    intro f hf ci hci co hco r hr
    have hpos := hw'.2.1 f (by rw [hw'.1.1]; exact hf) ci (by rw [hw'.1.2.1]; exact hci) co hco r hr
    unfold setWeights at hθ
    split at hθ
    · simp at hθ
    split at hθ
    · simp at hθ
    split at hθ
    · simp at hθ
    simp only [Except.ok.injEq] at hθ
    rw [← hθ]
    intro hb
    have := expL_logL hpos.le
    simp only at hb
    rw [hb] at this
    simp at this
    exact absurd this.symm hpos.ne'
  have hCo : w.Co = 1 := by rw [hwd]
  have hRw : w.R = R a := by rw [hwd]
  have hmk : mkSum ms w = .ok (sum c 1 w.R θ) := by
    have hemp : ms.isEmpty = false := by rw [hms]; rfl
    have hm : (match ms with
      | [c] => (.ok c : Except Exc Circ)
      | l => mkCat 2 l) = .ok c := by rw [← hcat, hms]
    unfold mkSum
    simp only [hemp, Bool.false_eq_true, if_false, bind, Except.bind, pure, Except.pure, throw, throwThe,
      MonadExceptOf.throw]
    rw [if_neg (by omega)]
    rw [hms] at hm ⊢
    simp only at hm
    rw [hCo] at hθ
    simp only [hm, hCo, hθ]
  refine ⟨θ, w.R, hmk, ⟨hcacc, le_rfl, fun f hf co hco r hr => ⟨0, by omega, hfin f hf 0 (by omega) co (by omega) r hr⟩⟩,
    fun m hm => by rw [hRw]; exact hR a ham m hm, hcF, fun m hm v => ?_, fun f hf ci hci co hco r hr =>
      hfin f hf ci hci co (by omega) r hr, fun x f hf r hr => ?_⟩
  · simp only [hc, scope, hpos, dif_pos]
    exact hs _ (List.get_mem ms _) m hm v
  · rw [expL_featAt_sum hf]
    have hbc : bc w.R r = r := by unfold bc; split <;> omega
    rw [hcC, Finset.sum_div, Finset.sum_range]
    refine Finset.sum_congr rfl fun i _ => ?_
    have hwi := (C08_set_get c w.Co w.R w θ hθ (f := f) (ci := i) (co := 0) (r := r)
      (by rw [hwd]; simp only; rw [← hcF a ham]; exact hf) (by rw [hwd]; simp only; omega) (by omega) hr).2 (by
        rw [hwd]; exact hsum1)
    rw [hbc, hwi]
    have hoff : offC ms.get i = i := by
      unfold offC
      have e : (List.ofFn fun k => C (ms.get k)) = List.replicate ms.length 1 := by
        apply List.ext_getElem
        · simp
        · intro j h1 h2
          simp only [List.getElem_ofFn, List.getElem_replicate]
          exact hC _ (List.get_mem ms _)
      rw [e, List.take_replicate, List.sum_replicate]
      simp
    have hfe := featAt_cat2 (cs := ms.get) i (f := f) (k := 0) hf (by rw [hC _ (List.get_mem ms i)]; omega) x r
    rw [hoff, add_zero] at hfe
    rw [hc, hfe, hwd]
    ring


/-! ### build -/

theorem build_prod_iff {n : ℕ} {es : Fin n → Expr} {c : Circ} : build (.prod n es) = .ok c ↔
    ∃ cs : Fin n → Circ, (∀ i, build (es i) = .ok (cs i)) ∧ validateProduct (List.ofFn cs) = .ok () ∧
      mkProd (List.ofFn cs) = .ok c := by
  constructor
  · intro h
    rw [build] at h
    cases hs : seqAll (List.ofFn fun i : Fin n => build (es i)) with
    | error e => simp [hs, bind, Except.bind] at h
    | ok ms =>
      obtain ⟨cs, rfl, hcs⟩ := seqAll_ok hs
      simp only [hs, bind, Except.bind] at h
      cases hv : validateProduct (List.ofFn cs) with
      | error e => simp [hv] at h
      | ok u => rw [hv] at h; exact ⟨cs, hcs, hv, h⟩
  · rintro ⟨cs, hcs, hv, hm⟩
    rw [build, seqAll_of hcs]
    simp only [bind, Except.bind, hv, hm]

theorem build_sum_iff {n : ℕ} {ws : Fin n → ℝ} {es : Fin n → Expr} {c : Circ} : build (.sum n ws es) = .ok c ↔
    ∃ (cs : Fin n → Circ) (w : Weights), (∀ i, build (es i) = .ok (cs i)) ∧ validateSum (List.ofFn cs) = .ok () ∧
      makeSumWeights (List.ofFn ws) (((List.ofFn cs).head?.map F).getD 0) (((List.ofFn cs).head?.map R).getD 0) = .ok w ∧
      mkSum (List.ofFn cs) w = .ok c := by
  constructor
  · intro h
    rw [build] at h
    cases hs : seqAll (List.ofFn fun i : Fin n => build (es i)) with
    | error e => simp [hs, bind, Except.bind] at h
    | ok ms =>
      obtain ⟨cs, rfl, hcs⟩ := seqAll_ok hs
      simp only [hs, bind, Except.bind] at h
      cases hv : validateSum (List.ofFn cs) with
      | error e => simp [hv] at h
      | ok u =>
        rw [hv] at h
        simp only at h
        split at h
        · cases h
        · rename_i w hw
          exact ⟨cs, w, hcs, hv, hw, h⟩
  · rintro ⟨cs, w, hcs, hv, hw, hm⟩
    rw [build, seqAll_of hcs]
    simp only [bind, Except.bind, hv, hw, hm]

/-- What a built module looks like. -/
structure Looks (e : Expr) (c : Circ) : Prop where
  acc : Accepted c
  feats : F c = e.feats
  chans : C c = e.chans
  reps : R c = e.reps
  vars : ∀ v, v ∈ (scope c).query ↔ v ∈ e.vars

theorem pairwise_ofFn_apart {n : ℕ} {es : Fin n → Expr} {cs : Fin n → Circ} (h : ∀ i, Looks (es i) (cs i)) :
    (List.ofFn cs).Pairwise Apart ↔ ∀ i j, i ≠ j → Disjoint (es i).vars (es j).vars := by
  rw [List.pairwise_ofFn]
  have key : ∀ i j, Apart (cs i) (cs j) ↔ Disjoint (es i).vars (es j).vars := by
    intro i j
    rw [Set.disjoint_left]
    unfold Apart
    simp only [(h i).vars, (h j).vars]
  constructor
  · intro hp i j hij
    rcases lt_or_gt_of_ne hij with hl | hl
    · exact (key i j).1 (hp hl)
    · exact ((key j i).1 (hp hl)).symm
  · intro hp i j hij
    exact (key i j).2 (hp i j hij.ne)

theorem build_spec (e : Expr) (hT : e.All Accepted) :
    (e.WellFormed → ∃ c, build e = .ok c) ∧ ∀ c, build e = .ok c → e.WellFormed ∧ Looks e c := by
  induction e with
  | term c =>
    refine ⟨fun _ => ⟨c, rfl⟩, fun c' h => ?_⟩
    rw [build] at h
    injection h with h
    subst h
    exact ⟨trivial, hT, rfl, rfl, rfl, fun v => Iff.rfl⟩
  | weighted w e ih =>
    refine ⟨fun h => h.elim, fun c h => ?_⟩
    rw [build] at h; cases h
  | prod n es ih =>
    have hT' : ∀ i, (es i).All Accepted := hT
    have ih' := fun i => ih i (hT' i)
    constructor
    · rintro ⟨hn, hw, hd, hC, hR⟩
      choose cs hcs using fun i => (ih' i).1 (hw i)
      have hL : ∀ i, Looks (es i) (cs i) := fun i => ((ih' i).2 _ (hcs i)).2
      have ha : ∀ m ∈ List.ofFn cs, Accepted m := by
        intro m hm
        obtain ⟨i, rfl⟩ := (List.mem_ofFn' _ _).1 hm
        exact (hL i).acc
      have hv : validateProduct (List.ofFn cs) = .ok () := by
        refine (validateProduct_iff ha).2 ⟨by simpa using hn, (pairwise_ofFn_apart hL).2 hd, ?_, ?_⟩
        all_goals
          intro a ha b hb
          obtain ⟨i, rfl⟩ := (List.mem_ofFn' _ _).1 ha
          obtain ⟨j, rfl⟩ := (List.mem_ofFn' _ _).1 hb
        · rw [(hL i).chans, (hL j).chans]; exact hC i j
        · rw [(hL i).reps, (hL j).reps]; exact hR i j
      exact ⟨_, build_prod_iff.2 ⟨cs, hcs, hv, (mkProd_valid ha hv).1⟩⟩
    · intro c h
      obtain ⟨cs, hcs, hv, hm⟩ := build_prod_iff.1 h
      have hL : ∀ i, Looks (es i) (cs i) := fun i => ((ih' i).2 _ (hcs i)).2
      have ha : ∀ m ∈ List.ofFn cs, Accepted m := by
        intro m hm
        obtain ⟨i, rfl⟩ := (List.mem_ofFn' _ _).1 hm
        exact (hL i).acc
      obtain ⟨h1, h2, h3, h4⟩ := (validateProduct_iff ha).1 hv
      obtain ⟨g1, g2, g3, g4, g5, -⟩ := mkProd_valid ha hv
      rw [g1] at hm
      injection hm with hm
      rw [hm] at g2 g3 g4 g5
      have hn : 2 ≤ n := by simpa using h1
      have hmem : ∀ i, cs i ∈ List.ofFn cs := fun i => (List.mem_ofFn' _ _).2 ⟨i, rfl⟩
      refine ⟨⟨hn, fun i => ((ih' i).2 _ (hcs i)).1, (pairwise_ofFn_apart hL).1 h2, fun i j => ?_, fun i j => ?_⟩,
        g2, by rw [← hm]; rfl, ?_, ?_, fun v => ?_⟩
      · rw [← (hL i).chans, ← (hL j).chans]; exact h3 _ (hmem i) _ (hmem j)
      · rw [← (hL i).reps, ← (hL j).reps]; exact h4 _ (hmem i) _ (hmem j)
      · simp only [Expr.chans, show 0 < n by omega, dif_pos]
        rw [← (hL _).chans]; exact g3 _ (hmem _)
      · simp only [Expr.reps, show 0 < n by omega, dif_pos]
        rw [← (hL _).reps]; exact g4 _ (hmem _)
      · rw [g5]
        show _ ↔ ∃ i, v ∈ (es i).vars
        constructor
        · rintro ⟨m, hm, hv⟩
          obtain ⟨i, rfl⟩ := (List.mem_ofFn' _ _).1 hm
          exact ⟨i, ((hL i).vars v).1 hv⟩
        · rintro ⟨i, hi⟩
          exact ⟨cs i, hmem i, ((hL i).vars v).2 hi⟩
  | sum n ws es ih =>
    have hT' : ∀ i, (es i).All Accepted := hT
    have ih' := fun i => ih i (hT' i)
    constructor
    · rintro ⟨hn, hp, hw, hs, hF, hC, hR⟩
      choose cs hcs using fun i => (ih' i).1 (hw i)
      have hL : ∀ i, Looks (es i) (cs i) := fun i => ((ih' i).2 _ (hcs i)).2
      have ha : ∀ m ∈ List.ofFn cs, Accepted m := by
        intro m hm
        obtain ⟨i, rfl⟩ := (List.mem_ofFn' _ _).1 hm
        exact (hL i).acc
      have hv : validateSum (List.ofFn cs) = .ok () := by
        refine (validateSum_iff ha).2 ⟨by simpa using hn, ?_, ?_, ?_, ?_⟩
        · intro a ha b hb v
          obtain ⟨i, rfl⟩ := (List.mem_ofFn' _ _).1 ha
          obtain ⟨j, rfl⟩ := (List.mem_ofFn' _ _).1 hb
          rw [(hL i).vars, (hL j).vars, hs i j]
        · intro a ha b hb
          obtain ⟨i, rfl⟩ := (List.mem_ofFn' _ _).1 ha
          obtain ⟨j, rfl⟩ := (List.mem_ofFn' _ _).1 hb
          rw [(hL i).feats, (hL j).feats]; exact hF i j
        · intro a ha
          obtain ⟨i, rfl⟩ := (List.mem_ofFn' _ _).1 ha
          rw [(hL i).chans]; exact hC i
        · intro a ha b hb
          obtain ⟨i, rfl⟩ := (List.mem_ofFn' _ _).1 ha
          obtain ⟨j, rfl⟩ := (List.mem_ofFn' _ _).1 hb
          rw [(hL i).reps, (hL j).reps]; exact hR i j
      have hp' : ∀ a ∈ List.ofFn ws, 0 < a := by
        intro a ha
        obtain ⟨i, rfl⟩ := (List.mem_ofFn' _ _).1 ha
        exact hp i
      have hne : List.ofFn ws ≠ [] := by
        intro h0
        have := congrArg List.length h0
        simp at this; omega
      obtain ⟨w, hw'⟩ := (makeSumWeights_iff hne (((List.ofFn cs).head?.map F).getD 0)
        (((List.ofFn cs).head?.map R).getD 0)).2 hp'
      obtain ⟨θ, Rn, hm, -⟩ := mkSum_valid ha hv hp' (by simp) hw'
      exact ⟨_, build_sum_iff.2 ⟨cs, w, hcs, hv, hw', hm⟩⟩
    · intro c h
      obtain ⟨cs, w, hcs, hv, hw, hm⟩ := build_sum_iff.1 h
      have hL : ∀ i, Looks (es i) (cs i) := fun i => ((ih' i).2 _ (hcs i)).2
      have ha : ∀ m ∈ List.ofFn cs, Accepted m := by
        intro m hm
        obtain ⟨i, rfl⟩ := (List.mem_ofFn' _ _).1 hm
        exact (hL i).acc
      obtain ⟨h1, h2, h3, h4, h5⟩ := (validateSum_iff ha).1 hv
      have hn : 2 ≤ n := by simpa using h1
      have hne : List.ofFn ws ≠ [] := by
        intro h0
        have := congrArg List.length h0
        simp at this; omega
      have hp' := (makeSumWeights_iff hne _ _).1 ⟨w, hw⟩
      obtain ⟨θ, Rn, g1, g2, g3, g4, g5, -⟩ := mkSum_valid ha hv hp' (by simp) hw
      rw [g1] at hm
      injection hm with hm
      have hmem : ∀ i, cs i ∈ List.ofFn cs := fun i => (List.mem_ofFn' _ _).2 ⟨i, rfl⟩
      subst hm
      refine ⟨⟨hn, fun i => hp' _ ((List.mem_ofFn' _ _).2 ⟨i, rfl⟩), fun i => ((ih' i).2 _ (hcs i)).1, fun i j => ?_,
        fun i j => ?_, fun i => ?_, fun i j => ?_⟩, g2, ?_, rfl, ?_, fun v => ?_⟩
      · ext v
        rw [← (hL i).vars, ← (hL j).vars]; exact h2 _ (hmem i) _ (hmem j) v
      · rw [← (hL i).feats, ← (hL j).feats]; exact h3 _ (hmem i) _ (hmem j)
      · rw [← (hL i).chans]; exact h4 _ (hmem i)
      · rw [← (hL i).reps, ← (hL j).reps]; exact h5 _ (hmem i) _ (hmem j)
      · simp only [Expr.feats, show 0 < n by omega, dif_pos]
        rw [← (hL _).feats]; exact g4 _ (hmem _)
      · simp only [Expr.reps, show 0 < n by omega, dif_pos]
        rw [← (hL _).reps]; exact g3 _ (hmem _)
      · simp only [Expr.vars, show 0 < n by omega, dif_pos]
        rw [← (hL _).vars]; exact g5 _ (hmem _) v

/-- C39: an expression over constructed modules is built exactly when it is compatible: every product has at least two
factors without common variables and equal shapes, every mixture at least two terms over the same variables with one
channel, equal shapes and positive weights, and weighted terms occur only as terms of mixtures.  The built module has
the expression's variables, features, channels and repetitions. -/
theorem C39_build_iff {e : Expr} (hT : e.All Accepted) : (∃ c, build e = .ok c) ↔ e.WellFormed :=
  ⟨fun ⟨c, h⟩ => ((build_spec e hT).2 c h).1, (build_spec e hT).1⟩

theorem C39_build_shape {e : Expr} (hT : e.All Accepted) {c : Circ} (h : build e = .ok c) :
    F c = e.feats ∧ C c = e.chans ∧ R c = e.reps ∧ ∀ v, v ∈ (scope c).query ↔ v ∈ e.vars :=
  have l := ((build_spec e hT).2 c h).2
  ⟨l.feats, l.chans, l.reps, l.vars⟩

theorem build_fval (e : Expr) (hT : e.All Accepted) : ∀ c, build e = .ok c → ∀ x, ∀ r < e.reps,
    ∀ k < e.chans, ∀ f < e.feats, expL (featAt (den c) f x r k) = e.fval x r k f := by
  induction e with
  | term c =>
    intro c' h x r _ k _ f _
    rw [build] at h
    injection h with h
    subst h; rfl
  | weighted w e ih => intro c h; rw [build] at h; cases h
  | prod n es ih =>
    intro c h x r hr k hk f hf
    have hT' : ∀ i, (es i).All Accepted := hT
    obtain ⟨hwf, -⟩ := (build_spec _ hT).2 c h
    obtain ⟨cs, hcs, hv, hm⟩ := build_prod_iff.1 h
    have hL : ∀ i, Looks (es i) (cs i) := fun i => ((build_spec _ (hT' i)).2 _ (hcs i)).2
    have ha : ∀ m ∈ List.ofFn cs, Accepted m := by
      intro m hm
      obtain ⟨i, rfl⟩ := (List.mem_ofFn' _ _).1 hm
      exact (hL i).acc
    obtain ⟨g1, g2, g3, g4, g5, g6⟩ := mkProd_valid ha hv
    rw [g1] at hm
    injection hm with hm
    have hf0 : f = 0 := by have : f < 1 := hf; omega
    subst hf0
    have hd : dens c x r k = expL (featAt (den c) 0 x r k) := by
      unfold dens; rw [← hm, show F (prod (cat1 (List.ofFn cs).length (List.ofFn cs).get)) = 1 from rfl,
        Finset.prod_range_one]
    rw [← hd, ← hm, g6, List.map_ofFn, List.prod_ofFn]
    show _ = ∏ i, ∏ f ∈ Finset.range (es i).feats, (es i).fval x r k f
    refine Finset.prod_congr rfl fun i _ => ?_
    have hn : 0 < n := by have := hwf.1; omega
    simp only [Expr.reps, Expr.chans, hn, dif_pos] at hr hk
    show dens (cs i) x r k = _
    unfold dens
    rw [(hL i).feats]
    refine Finset.prod_congr rfl fun f hf => ?_
    exact ih i (hT' i) _ (hcs i) x r (by rw [hwf.2.2.2.2 i ⟨0, hn⟩]; exact hr) k
      (by rw [hwf.2.2.2.1 i ⟨0, hn⟩]; exact hk) f (Finset.mem_range.1 hf)
  | sum n ws es ih =>
    intro c h x r hr k hk f hf
    have hT' : ∀ i, (es i).All Accepted := hT
    obtain ⟨hwf, -⟩ := (build_spec _ hT).2 c h
    obtain ⟨cs, w, hcs, hv, hw, hm⟩ := build_sum_iff.1 h
    have hL : ∀ i, Looks (es i) (cs i) := fun i => ((build_spec _ (hT' i)).2 _ (hcs i)).2
    have ha : ∀ m ∈ List.ofFn cs, Accepted m := by
      intro m hm
      obtain ⟨i, rfl⟩ := (List.mem_ofFn' _ _).1 hm
      exact (hL i).acc
    have hp' : ∀ a ∈ List.ofFn ws, 0 < a := by
      intro a ha
      obtain ⟨i, rfl⟩ := (List.mem_ofFn' _ _).1 ha
      exact hwf.2.1 i
    obtain ⟨θ, Rn, g1, g2, g3, g4, g5, -, g6⟩ := mkSum_valid ha hv hp' (by simp) hw
    rw [g1] at hm
    injection hm with hm
    have hn : 0 < n := by have := hwf.1; omega
    have hmem : ∀ i, cs i ∈ List.ofFn cs := fun i => (List.mem_ofFn' _ _).2 ⟨i, rfl⟩
    simp only [Expr.reps, hn, dif_pos] at hr
    simp only [Expr.feats, hn, dif_pos] at hf
    have hk0 : k = 0 := by have : k < 1 := hk; omega
    subst hk0
    have hFc : f < F (cat2 (List.ofFn cs).length (List.ofFn cs).get) := by
      rw [g4 _ (hmem ⟨0, hn⟩), (hL _).feats]; exact hf
    have hRn : r < Rn := by rw [g3 _ (hmem ⟨0, hn⟩), (hL _).reps]; exact hr
    rw [← hm, g6 x f hFc r hRn, List.sum_ofFn]
    show _ = (∑ i, ws i * (es i).fval x r 0 f) / ∑ i, ws i
    congr 1
    have hlen : (List.ofFn cs).length = n := by simp
    rw [← Equiv.sum_comp (finCongr hlen.symm)]
    refine Finset.sum_congr rfl fun i _ => ?_
    have e1 : (List.ofFn ws).getD ((finCongr hlen.symm i : Fin _) : ℕ) 0 = ws i := by
      rw [List.getD_eq_getElem _ _ (by simp)]; simp
    have e2 : (List.ofFn cs).get (finCongr hlen.symm i) = cs i := by simp
    rw [e1, e2]
    congr 1
    exact ih i (hT' i) _ (hcs i) x r (by rw [hwf.2.2.2.2.2.2 i ⟨0, hn⟩]; exact hr) 0
      (by rw [hwf.2.2.2.2.2.1 i]; omega) f (by rw [hwf.2.2.2.2.1 i ⟨0, hn⟩]; exact hf)

/-- C39: exactly what every expression builds, feature by feature: a product has one feature, the product of all
features of its factors; feature `f` of a mixture is the weight-normalised mixture of the terms' features `f`. -/
theorem C39_features {e : Expr} (hT : e.All Accepted) {c : Circ} (h : build e = .ok c) (x : Row)
    {f r k : ℕ} (hf : f < F c) (hr : r < R c) (hk : k < C c) : expL (featAt (den c) f x r k) = e.fval x r k f := by
  obtain ⟨h1, h2, h3, -⟩ := C39_build_shape hT h
  exact build_fval e hT c h x r (by omega) k (by omega) f (by omega)

/-- For single-feature terms the features multiply to what the algebra says. -/
theorem Expr.tot_eq_val (e : Expr) (hw : e.WellFormed) (hS : e.Single) (x : Row) (r : ℕ) :
    ∀ k, ∏ f ∈ Finset.range e.feats, e.fval x r k f = e.val x r k := by
  induction e with
  | term c => intro k; rfl
  | weighted w e ih => exact hw.elim
  | prod n es ih =>
    intro k
    show ∏ f ∈ Finset.range 1, ∏ i, ∏ f ∈ Finset.range (es i).feats, (es i).fval x r k f = ∏ i, (es i).val x r k
    rw [Finset.prod_range_one]
    exact Finset.prod_congr rfl fun i _ => ih i (hw.2.1 i) (hS i) k
  | sum n ws es ih =>
    intro k
    have hn : 0 < n := by have := hw.1; omega
    have hf : Expr.feats (.sum n ws es) = 1 := by
      simp only [Expr.feats, hn, dif_pos]; exact (hS ⟨0, hn⟩).2
    rw [hf, Finset.prod_range_one]
    show (∑ i, ws i * (es i).fval x r 0 0) / ∑ i, ws i = (∑ i, ws i * (es i).val x r 0) / ∑ i, ws i
    congr 1
    refine Finset.sum_congr rfl fun i _ => ?_
    have := ih i (hw.2.2.1 i) (hS i).1 0
    rw [(hS i).2, Finset.prod_range_one] at this
    rw [this]

/-- C39 (partial): the built module's likelihood is what the algebra says - products of the factors, mixtures with the
weights divided by their sum - provided every term of a mixture stands for a single feature.  Missing: terms with
several features, for which it is false (C39_multivariate_terms). -/
theorem C39_denotes_partial {e : Expr} (hT : e.All Accepted) (hS : e.Single) {c : Circ} (h : build e = .ok c) (x : Row)
    {r k : ℕ} (hr : r < R c) (hk : k < C c) : dens c x r k = e.val x r k := by
  obtain ⟨h1, -⟩ := C39_build_shape hT h
  rw [← e.tot_eq_val ((C39_build_iff hT).1 ⟨c, h⟩) hS x r k, ← h1]
  exact Finset.prod_congr rfl fun f hf => C39_features hT h x (Finset.mem_range.1 hf) hr hk

end Verif.Dsl

import Verif.NaiveBayes
import Verif.ClassifyProps
import Verif.LearnSpnProps
import Verif.LeafFitProps

/-!
# NaiveBayes (C60)
-/

namespace Verif.NB

open Verif Verif.Circ Verif.Build Verif.LearnSpn MeasureTheory

variable {μ : Var → Measure ℝ}

/-- A leaf module its own constructor accepted: non-negative distinct variables. -/
def Leaf.Built (l : Leaf) : Prop := (∀ v ∈ l.q, 0 ≤ v) ∧ l.q.Nodup

/-- The two leaves share no variable. -/
def Apart (a b : Leaf) : Prop := ∀ v ∈ a.q, v ∉ b.q

theorem circ_accepted {l : Leaf} (h : l.Built) : Accepted l.circ := by
  have : Scope.mk? l.q [] = .ok ⟨l.q, []⟩ :=
    (Scope.mk?_ok_iff _ _ _).2 ⟨rfl, ⟨h.1, by simp, h.2, by simp, by simp, by simp⟩⟩
  show mkLeaf _ _ _ _ = _
  unfold mkLeaf
  rw [this]
  rfl

theorem mkProd_iff {leaves : List Leaf} (hb : ∀ l ∈ leaves, l.Built) {K : ℕ} (hK : ∀ l ∈ leaves, l.C = K)
    (hne : leaves ≠ []) : (∃ c, mkProd (leaves.map Leaf.circ) = .ok c) ↔ leaves.Pairwise Apart := by
  rcases leaves with _ | ⟨a, _ | ⟨b, ls⟩⟩
  · exact absurd rfl hne
  · exact ⟨fun _ => by simp, fun _ => ⟨_, rfl⟩⟩
  · set L := a :: b :: ls with hL
    have hval : ∀ t ∈ (L.map Leaf.circ).map scope, Scope.Valid t := by
      intro t ht
      obtain ⟨m, hm, rfl⟩ := List.mem_map.1 ht
      obtain ⟨l, hl, rfl⟩ := List.mem_map.1 hm
      exact (scope_facts (circ_accepted (hb l hl))).1
    have hmk : mkProd (L.map Leaf.circ) = (mkCat 1 (L.map Leaf.circ)).map prod := by
      show (do return prod (← mkCat 1 (L.map Leaf.circ))) = _
      cases mkCat 1 (L.map Leaf.circ) <;> rfl
    constructor
    · rintro ⟨c, hc⟩
      have hck : check1 (L.map Leaf.circ) = .ok () := by
        rw [hmk] at hc
        unfold mkCat at hc
        cases hck : check1 (L.map Leaf.circ) with
        | error e => simp [hck, bind, Except.bind, Except.map] at hc
        | ok u => rfl
      have hd := (check1_ok hck).2.1
      obtain ⟨b', hb', hiff⟩ := Scope.C03_allPairwiseDisjoint (l := (L.map Leaf.circ).map scope)
        fun t ht => reachable_of_valid (hval t ht)
      rw [hd] at hb'
      have := hiff.1 (by injection hb' with h; exact h.symm)
      rw [List.pairwise_iff_getElem]
      intro i j hi hj hij v hv
      have h := this i j (by simpa using hi) (by simpa using hj) hij v
      simp only [List.getElem_map] at h
      exact h hv
    · intro hp
      have hck : check1 (L.map Leaf.circ) = .ok () := by
        refine check1_of (by simp [hL]) (K := K) ?_ ?_ ?_
        · intro m hm
          obtain ⟨l, hl, rfl⟩ := List.mem_map.1 hm
          exact hK l hl
        · intro m hm
          exact hval _ (List.mem_map_of_mem hm)
        · rw [List.pairwise_map]
          exact hp
      rw [hmk]
      unfold mkCat
      simp only [if_true, hck, bind, Except.bind, pure, Except.pure, Except.map]
      exact ⟨_, rfl⟩

/-- A prior the constructor accepts for `n` classes: none, or `n` positive finite numbers. -/
def PriorOk (n : ℕ) (prior : Option (List (Option ℝ))) : Prop :=
  ∀ ps, prior = some ps → ps.length = n ∧ ∀ p ∈ ps, ∃ t : ℝ, 0 < t ∧ p = some t

/-- The class probabilities a prior stands for: uniform, or the given numbers divided by their sum. -/
noncomputable def priorOf (n : ℕ) : Option (List (Option ℝ)) → ℕ → ℝ
  | none, _ => 1 / n
  | some ps, k => (ps.getD k none).getD 0 / (ps.map fun p => p.getD 0).sum

theorem buildPrior_iff (n : ℕ) (prior : Option (List (Option ℝ))) :
    (PriorOk n prior → buildPrior n prior = .ok (priorOf n prior)) ∧
      ((∃ p, buildPrior n prior = .ok p) → PriorOk n prior) := by
  rcases prior with _ | ps
  · exact ⟨fun _ => rfl, fun _ ps h => by cases h⟩
  · constructor
    · intro h
      obtain ⟨h1, h2⟩ := h ps rfl
      have e2 : ¬ (ps.any Option.isNone = true) := by
        rw [List.any_eq_true]
        rintro ⟨p, hp, hn⟩
        obtain ⟨t, -, rfl⟩ := h2 p hp
        simp at hn
      have e3 : ¬ ∃ p ∈ ps, p.getD 0 ≤ (0 : ℝ) := by
        rintro ⟨p, hp, hn⟩
        obtain ⟨t, ht, rfl⟩ := h2 p hp
        exact absurd hn (not_le.2 ht)
      simp only [buildPrior]
      rw [if_neg (not_not.2 h1), if_neg e2, if_neg e3]
      rfl
    · rintro ⟨p, hp⟩ ps' h
      cases h
      simp only [buildPrior] at hp
      by_cases h1 : ps.length ≠ n
      · rw [if_pos h1] at hp; cases hp
      rw [if_neg h1] at hp
      by_cases h2 : ps.any Option.isNone = true
      · rw [if_pos h2] at hp; cases hp
      rw [if_neg h2] at hp
      by_cases h3 : ∃ p ∈ ps, p.getD 0 ≤ (0 : ℝ)
      · rw [if_pos h3] at hp; cases hp
      refine ⟨not_not.1 h1, fun q hq => ?_⟩
      rcases q with _ | t
      · exact absurd (List.any_eq_true.2 ⟨none, hq, rfl⟩) h2
      · refine ⟨t, ?_, rfl⟩
        by_contra ht
        exact h3 ⟨some t, hq, not_lt.1 ht⟩

theorem sum_getD_map (ps : List (Option ℝ)) :
    ∑ k ∈ Finset.range ps.length, (ps.getD k none).getD 0 = (ps.map fun p => p.getD 0).sum := by
  rw [← sum_getD, List.length_map]
  refine Finset.sum_congr rfl fun k hk => ?_
  have hk := Finset.mem_range.1 hk
  rw [List.getD_eq_getElem _ _ hk, List.getD_eq_getElem _ _ (by simpa using hk), List.getElem_map]

theorem priorOf_spec {n : ℕ} (hn : 0 < n) {prior : Option (List (Option ℝ))} (h : PriorOk n prior) :
    (∀ k < n, 0 < priorOf n prior k) ∧ ∑ k ∈ Finset.range n, priorOf n prior k = 1 := by
  rcases prior with _ | ps
  · have : (0 : ℝ) < n := by exact_mod_cast hn
    refine ⟨fun k _ => by simp only [priorOf]; positivity, ?_⟩
    simp [priorOf, this.ne']
  · obtain ⟨h1, h2⟩ := h ps rfl
    have hpos : ∀ k < n, 0 < (ps.getD k none).getD (0 : ℝ) := by
      intro k hk
      rw [List.getD_eq_getElem _ _ (by omega)]
      obtain ⟨t, ht, e⟩ := h2 _ (List.getElem_mem (l := ps) (n := k) (by omega))
      rw [e]; exact ht
    have hs : 0 < (ps.map fun p => p.getD (0 : ℝ)).sum := by
      rw [← sum_getD_map, h1]
      exact Finset.sum_pos (fun k hk => hpos k (Finset.mem_range.1 hk)) ⟨0, Finset.mem_range.2 hn⟩
    refine ⟨fun k hk => div_pos (hpos k hk) hs, ?_⟩
    simp only [priorOf]
    rw [← Finset.sum_div, ← h1, sum_getD_map]
    exact div_self hs.ne'

/-- p(x | class k) as naive Bayes defines it: the product over all leaves and all their variables; missing entries
contribute 1. -/
noncomputable def classDensity (leaves : List Leaf) (x : Row) (k : ℕ) : ℝ :=
  (leaves.map fun l => ∏ i : Fin l.q.length, expL (cellVal (l.d i k 0) (x l.q[i]))).prod

theorem joint_leaf {l : Leaf} (hR : l.R = 1) (x : Row) (k : ℕ) :
    joint l.circ x k = ∏ i : Fin l.q.length, expL (cellVal (l.d i k 0) (x l.q[i])) := by
  unfold joint
  have : F l.circ = l.q.length := rfl
  rw [this, Finset.prod_range]
  refine Finset.prod_congr rfl fun i _ => ?_
  have hq : l.q[i.val]? = some l.q[i] := by simp
  unfold Leaf.circ
  rw [featAt_leaf hq, hR]
  cases x l.q[i] <;> rfl

theorem mkSum_single {c : Circ} {n : ℕ} (hF : F c = 1) (hC : C c = n) {p : ℕ → ℝ} (hp : ∀ k < n, 0 < p k)
    (hs : ∑ k ∈ Finset.range n, p k = 1) :
    ∃ θ, mkSum [c] (priorW n p) = .ok (sum c 1 1 θ) ∧ (∀ f ci co r, ci < n → θ f ci co r ≠ ⊥) ∧
      ∀ k < n, weight c θ 0 k 0 0 = p k := by
  have hset : ∃ θ, setWeights c 1 1 (priorW n p) = .ok θ := by
    refine (C08_setter_accepts_iff c 1 1 _).2 ⟨⟨hF.symm, hC.symm, rfl, rfl⟩, fun f _ k hk co _ r _ => hp k hk, ?_⟩
    intro f _ co _ r _
    show |∑ k ∈ Finset.range n, p k - 1| ≤ _
    rw [hs]; norm_num
  obtain ⟨θ, hθ⟩ := hset
  refine ⟨θ, ?_, ?_, fun k hk => ?_⟩
  · unfold mkSum
    simp only [List.isEmpty_cons, Bool.false_eq_true, if_false, bind, Except.bind, pure, Except.pure]
    rw [if_neg (by show ¬ (1 < 1); omega)]
    have hθ' : setWeights c (priorW n p).Co (priorW n p).R (priorW n p) = .ok θ := hθ
    rw [hθ']
    rfl
  · have he : θ = fun f ci co r => logL (p ci) := by
      unfold setWeights at hθ
      split at hθ
      · cases hθ
      split at hθ
      · cases hθ
      split at hθ
      · cases hθ
      injection hθ with hθ
      exact hθ.symm
    intro f ci co r hci
    rw [he]
    show logL (p ci) ≠ ⊥
    rw [logL, if_pos (hp ci hci)]
    exact WithBot.coe_ne_bot
  · exact (C08_set_get c 1 1 _ θ hθ (f := 0) (co := 0) (r := 0) Nat.one_pos hk Nat.one_pos Nat.one_pos).2 hs

/-- What `NaiveBayes(...)` accepts, for leaves accepted by their own constructors: at least one class, at least one leaf,
one repetition and one channel per class in every leaf, leaves over disjoint variables; a prior only for several classes,
and then one positive finite number per class; a learnable prior only for several classes. -/
theorem C60_accepts_iff {leaves : List Leaf} (hb : ∀ l ∈ leaves, l.Built) (n : ℤ) (prior : Option (List (Option ℝ)))
    (learn : Bool) :
    (∃ net, build leaves n prior learn = .ok net) ↔
      1 ≤ n ∧ leaves ≠ [] ∧ (∀ l ∈ leaves, l.R = 1 ∧ (l.C : ℤ) = n) ∧ leaves.Pairwise Apart ∧
        (n = 1 → prior = none ∧ learn = false) ∧ (1 < n → PriorOk n.toNat prior) := by
  unfold build
  by_cases h1 : n < 1
  · rw [if_pos h1]
    exact ⟨fun ⟨_, h⟩ => (by cases h), fun h => absurd h.1 (by omega)⟩
  rw [if_neg h1]
  by_cases h2 : leaves.isEmpty = true
  · rw [if_pos h2]
    exact ⟨fun ⟨_, h⟩ => (by cases h), fun h => absurd (List.isEmpty_iff.1 h2) h.2.1⟩
  rw [if_neg h2]
  have hne : leaves ≠ [] := fun h => h2 (List.isEmpty_iff.2 h)
  have hany : leaves.any (fun l => l.R != 1 || l.C != n.toNat) = true ↔ ¬ ∀ l ∈ leaves, l.R = 1 ∧ (l.C : ℤ) = n := by
    rw [List.any_eq_true]
    push Not
    constructor
    · rintro ⟨l, hl, h⟩
      refine ⟨l, hl, fun hR => ?_⟩
      simp only [hR, bne_self_eq_false, Bool.false_or, bne_iff_ne] at h
      omega
    · rintro ⟨l, hl, h⟩
      refine ⟨l, hl, ?_⟩
      by_cases hR : l.R = 1
      · have := h hR
        simp only [hR, bne_self_eq_false, Bool.false_or, bne_iff_ne]
        omega
      · simp [hR]
  by_cases h3 : leaves.any (fun l => l.R != 1 || l.C != n.toNat) = true
  · rw [if_pos h3]
    exact ⟨fun ⟨_, h⟩ => (by cases h), fun h => absurd h.2.2.1 (hany.1 h3)⟩
  rw [if_neg h3]
  have hall : ∀ l ∈ leaves, l.R = 1 ∧ (l.C : ℤ) = n := not_not.1 fun h => h3 (hany.2 h)
  have hK : ∀ l ∈ leaves, l.C = n.toNat := fun l hl => by have := (hall l hl).2; omega
  have hprod := mkProd_iff hb hK hne
  by_cases h4 : n = 1
  · rw [if_pos h4]
    rcases prior with _ | ps
    · cases learn with
      | true =>
        simp only [Option.isSome_none, Bool.false_eq_true, if_false, if_true]
        exact ⟨fun ⟨_, h⟩ => (by cases h), fun h => absurd (h.2.2.2.2.1 h4).2 (by simp)⟩
      | false =>
        simp only [Option.isSome_none, Bool.false_eq_true, if_false]
        constructor
        · rintro ⟨net, h⟩
          refine ⟨by omega, hne, hall, hprod.1 ?_, fun _ => ⟨by trivial, by trivial⟩, fun h => by omega⟩
          cases hc : mkProd (leaves.map Leaf.circ) with
          | error e => rw [hc] at h; cases h
          | ok c => exact ⟨c, rfl⟩
        · rintro ⟨-, -, -, hp, -, -⟩
          obtain ⟨c, hc⟩ := hprod.2 hp
          rw [hc]
          exact ⟨_, rfl⟩
    · simp only [Option.isSome_some, if_true]
      exact ⟨fun ⟨_, h⟩ => (by cases h), fun h => absurd (h.2.2.2.2.1 h4).1 (by simp)⟩
  · rw [if_neg h4]
    constructor
    · rintro ⟨net, h⟩
      cases hc : mkProd (leaves.map Leaf.circ) with
      | error e => rw [hc] at h; cases h
      | ok c =>
        rw [hc] at h
        cases hp : buildPrior n.toNat prior with
        | error e => rw [hp] at h; cases h
        | ok p =>
          exact ⟨by omega, hne, hall, hprod.1 ⟨c, hc⟩, fun h => absurd h h4, fun _ => (buildPrior_iff _ _).2 ⟨p, hp⟩⟩
    · rintro ⟨-, -, -, hp, -, hpr⟩
      obtain ⟨c, hc⟩ := hprod.2 hp
      have hpr := hpr (by omega)
      rw [hc, (buildPrior_iff _ _).1 hpr]
      have hF : F c = 1 ∧ C c = n.toNat := by
        rcases leaves with _ | ⟨a, _ | ⟨b, ls⟩⟩
        · exact absurd rfl hne
        · have : c = prod a.circ := by
            have h' : (Except.ok (prod a.circ) : Except Exc Circ) = .ok c := hc
            injection h' with h'; exact h'.symm
          subst this
          exact ⟨rfl, hK a (by simp)⟩
        · have hc' : (do return prod (← mkCat 1 ((a :: b :: ls).map Leaf.circ)) : Except Exc Circ) = .ok c := hc
          unfold mkCat at hc'
          cases hck : check1 ((a :: b :: ls).map Leaf.circ) with
          | error e => simp only [hck, bind, Except.bind, if_true] at hc'; cases hc'
          | ok u =>
            simp only [hck, bind, Except.bind, pure, Except.pure, if_true] at hc'
            injection hc' with hc'
            subst hc'
            exact ⟨rfl, hK a (by simp)⟩
      obtain ⟨q1, q2⟩ := priorOf_spec (n := n.toNat) (by omega) hpr
      obtain ⟨θ, hθ, -⟩ := mkSum_single hF.1 hF.2 q1 q2
      show ∃ net, (do let s ← mkSum [c] (priorW n.toNat (priorOf n.toNat prior)); return (⟨n.toNat, learn, leaves, c, s⟩ : Net)) = _
      rw [hθ]
      exact ⟨_, rfl⟩

/-- The variables of a list of leaves. -/
def vars (leaves : List Leaf) : Finset Var := (leaves.flatMap Leaf.q).toFinset

/-- The model the constructor returns is a valid circuit over exactly the leaves' variables - a normalised density -, its
class-conditional part is the naive Bayes product, and its likelihood is the mixture of the class-conditional products
with the normalised prior (for one class: that product).  Missing entries are integrated out.
`μ v` is the base measure of variable `v`, with respect to which the leaves are normalised. -/
theorem C60_density [∀ v, SigmaFinite (μ v)] {leaves : List Leaf} (hb : ∀ l ∈ leaves, l.Built)
    (hd : ∀ l ∈ leaves, DensOk μ l.q l.d) {n : ℤ} {prior : Option (List (Option ℝ))} {learn : Bool} {net : Net}
    (h : build leaves n prior learn = .ok net) :
    (net.n : ℤ) = n ∧ Valid μ (vars leaves) net.root ∧ Valid μ (vars leaves) net.conditional ∧
      C net.conditional = net.n ∧ C net.root = 1 ∧
      (∀ x, ∀ k < net.n, expL (featAt (den net.conditional) 0 x 0 k) = classDensity leaves x k) ∧
      ∀ x, likelihood net.root x = if n = 1 then classDensity leaves x 0
        else ∑ k ∈ Finset.range net.n, priorOf net.n prior k * classDensity leaves x k := by
  obtain ⟨a1, a2, a3, a4, a5, a6⟩ := (C60_accepts_iff hb n prior learn).1 ⟨net, h⟩
  have hK : ∀ l ∈ leaves, l.C = n.toNat := fun l hl => by have := (a3 l hl).2; omega
  have hvars : ∀ v, (∃ m ∈ leaves.map Leaf.circ, v ∈ (scope m).query) ↔ v ∈ vars leaves := by
    intro v
    simp only [vars, List.mem_toFinset, List.mem_flatMap, List.mem_map]
    constructor
    · rintro ⟨m, ⟨l, hl, rfl⟩, hv⟩; exact ⟨l, hl, hv⟩
    · rintro ⟨l, hl, hv⟩; exact ⟨_, ⟨l, hl, rfl⟩, hv⟩
  obtain ⟨c, hc, hok, hC⟩ := prod_ok (μ := μ) (l := leaves.map Leaf.circ) (K := n.toNat)
    (Vs := fun m v => v ∈ (scope m).query) (by simpa using a2)
    (fun m hm => by
      obtain ⟨l, hl, rfl⟩ := List.mem_map.1 hm
      have hR := (a3 l hl).1
      have := (leaf_pre (μ := μ) (C := l.C) (hb l hl).1 (hb l hl).2 (by have := hK l hl; omega) (hd l hl)).2
      unfold Leaf.circ
      rw [hR]
      exact this.congr fun v => Iff.rfl)
    (fun m hm => by obtain ⟨l, hl, rfl⟩ := List.mem_map.1 hm; exact hK l hl)
    (by rw [List.pairwise_map]; exact a4)
  have hcond : ∀ x k, expL (featAt (den c) 0 x 0 k) = classDensity leaves x k := by
    intro x k
    rw [mkProd_value hc, List.map_map]
    unfold classDensity
    congr 1
    refine List.map_congr_left fun l hl => ?_
    exact joint_leaf (a3 l hl).1 x k
  have hvc : Valid μ (vars leaves) c := valid_of_ok hok hvars
  unfold build at h
  rw [if_neg (by omega), if_neg (by simpa using a2)] at h
  rw [if_neg (by
    rw [List.any_eq_true]
    rintro ⟨l, hl, hh⟩
    simp [(a3 l hl).1, hK l hl] at hh)] at h
  by_cases h4 : n = 1
  · obtain ⟨rfl, rfl⟩ := a5 h4
    rw [if_pos h4] at h
    simp only [Option.isSome_none, Bool.false_eq_true, if_false, hc, bind, Except.bind, pure, Except.pure] at h
    injection h with h
    subst h
    refine ⟨by simp [h4], hvc, hvc, by simp [hC, h4], by simp [hC, h4], fun x k _ => hcond x k, fun x => ?_⟩
    rw [if_pos h4]
    unfold likelihood
    rw [hok.one, Finset.prod_range_one]
    exact hcond x 0
  · rw [if_neg h4, hc, (buildPrior_iff _ _).1 (a6 (by omega))] at h
    obtain ⟨q1, q2⟩ := priorOf_spec (n := n.toNat) (by omega) (a6 (by omega))
    obtain ⟨θ, hθ, hfin, hw⟩ := mkSum_single hok.one hC q1 q2
    have h' : (do let s ← mkSum [c] (priorW n.toNat (priorOf n.toNat prior)); return (⟨n.toNat, learn, leaves, c, s⟩ : Net)) =
      .ok net := h
    rw [hθ] at h'
    have h'' : (Except.ok (⟨n.toNat, learn, leaves, c, sum c 1 1 θ⟩ : Net) : Except Exc Net) = .ok net := h'
    injection h'' with h''
    subst h''
    have hs : Ok μ (fun v => ∃ m ∈ leaves.map Leaf.circ, v ∈ (scope m).query) (sum c 1 1 θ) := by
      refine ⟨⟨⟨hok.acc, le_rfl, fun f _ co _ r _ => ⟨0, by omega, hfin f 0 co r (by omega)⟩⟩, hok.al,
        ⟨hok.fin, fun f _ ci hci co _ r _ => hfin f ci co r (by omega)⟩, ?_, le_rfl, hok.lf, hok.sc⟩, hok.one⟩
      simp only [tensorR, hok.rep]
      rfl
    refine ⟨by simp; omega, valid_of_ok hs hvars, hvc, hC, rfl, fun x k _ => hcond x k, fun x => ?_⟩
    rw [if_neg h4]
    unfold likelihood
    have hF : F (sum c 1 1 θ) = 1 := hok.one
    simp only
    rw [hF, Finset.prod_range_one, expL_featAt_sum (by rw [hok.one]; exact Nat.one_pos), hC]
    refine Finset.sum_congr rfl fun k hk => ?_
    rw [hcond, show bc 1 0 = 0 from rfl, hw k (Finset.mem_range.1 hk)]

end Verif.NB

import Verif.Hclt
import Verif.HcltTree
import Verif.ListProdMain
import Verif.BuildKit
import Verif.MstTopk

/-!
C70: hidden Chow-Liu trees.
-/

namespace Verif.Hclt

open Finset MeasureTheory Verif.Circ
open Verif.Span (Edge Adj IsSpanningTree)
open Verif.LP (Mod)
open Verif.LP.Mod (Good likelihood)

variable {n : ℕ} {μ : Var → Measure ℝ}

/-! ### The circuit, for arbitrary parameters -/

/-- The emission leaf of node `v`. -/
def leafOf (H : ℕ) (em : Fin n → ℕ → ℝ → LogV) (v : Fin n) : Mod :=
  .base (.leaf [((v : ℕ) : ℤ)] H 1 fun _ ch _ => em v ch)

/-- Product of the emission and the messages. -/
def joined (e : Mod) (msgs : List Mod) : Mod :=
  if msgs.isEmpty then e else .mul false (e :: msgs).length (e :: msgs).get

/-- The circuit of the subtree of `v`: `Co` is the number of channels of the transition Sums, `θ u ci co` their logits. -/
def net (adj : Fin n → List (Fin n)) (H Co : ℕ) (em : Fin n → ℕ → ℝ → LogV) (θ : Fin n → ℕ → ℕ → LogV) :
    ℕ → Fin n → Option (Fin n) → Mod
  | 0, v, _ => leafOf H em v
  | k + 1, v, p => joined (leafOf H em v) (((adj v).filter fun u => decide (p ≠ some u)).map fun u =>
      .sum (net adj H Co em θ k u (some v)) Co 1 fun _ ci co _ => θ u ci co)

/-- The whole circuit: the root Sum above the tree. -/
def hclt (fuel : ℕ) (edges : List (Edge n)) (r : Fin n) (H Co : ℕ) (em : Fin n → ℕ → ℝ → LogV) (θ : Fin n → ℕ → ℕ → LogV)
    (π : ℕ → LogV) : Mod :=
  .sum (net (fun v => edges.flatMap (ends v)) H Co em θ fuel r none) 1 1 fun _ ci _ _ => π ci

/-! ### Specification -/

/-- The emissions are normalised densities. -/
def EmOk (μ : Var → Measure ℝ) (H : ℕ) (em : Fin n → ℕ → ℝ → LogV) : Prop :=
  ∀ v, ∀ z < H, Measurable (fun t => expL (em v z t)) ∧ ∫⁻ t, ENNReal.ofReal (expL (em v z t)) ∂μ ((v : ℕ) : ℤ) = 1

/-- A list of edges without repetition that forms a spanning tree. -/
def TreeList (edges : List (Edge n)) : Prop := edges.Nodup ∧ IsSpanningTree edges.toFinset

/-! ### The adjacency lists -/

theorem mem_ends {v u : Fin n} {e : Edge n} : u ∈ ends v e ↔ e = (v, u) ∨ e = (u, v) := by
  unfold ends
  rcases e with ⟨a, b⟩
  simp only [List.mem_append, Prod.mk.injEq]
  constructor
  · rintro (h | h)
    · split_ifs at h with h1
      · rw [List.mem_singleton] at h; exact .inl ⟨h1, h.symm⟩
      · simp at h
    · split_ifs at h with h1
      · rw [List.mem_singleton] at h; exact .inr ⟨h.symm, h1⟩
      · simp at h
  · rintro (⟨h1, h2⟩ | ⟨h1, h2⟩)
    · left; simp [h1, h2]
    · right; simp [h1, h2]

theorem mem_adj {edges : List (Edge n)} {v u : Fin n} : u ∈ edges.flatMap (ends v) ↔ Adj edges.toFinset u v := by
  simp only [List.mem_flatMap, mem_ends, Adj, List.mem_toFinset]
  constructor
  · rintro ⟨e, he, rfl | rfl⟩
    · exact .inr he
    · exact .inl he
  · rintro (h | h)
    · exact ⟨_, h, .inr rfl⟩
    · exact ⟨_, h, .inl rfl⟩

theorem nodup_adj {edges : List (Edge n)} (h : edges.Nodup) (hlt : ∀ e ∈ edges, e.1 < e.2) (v : Fin n) :
    (edges.flatMap (ends v)).Nodup := by
  rw [List.nodup_flatMap]
  constructor
  · rintro ⟨a, b⟩ he
    have := hlt _ he
    unfold ends
    simp only at this ⊢
    split_ifs with h1 h2 h3
    · subst h1; subst h2; exact absurd this (lt_irrefl _)
    · simp
    · simp
    · simp
  · refine h.imp_of_mem ?_
    rintro ⟨a, b⟩ ⟨c, d⟩ he hf hne
    have h1 := hlt _ he
    have h2 := hlt _ hf
    rw [Function.onFun, List.disjoint_left]
    intro u hu hu'
    rw [mem_ends, Prod.mk.injEq, Prod.mk.injEq] at hu hu'
    simp only at h1 h2
    apply hne
    rcases hu with ⟨rfl, rfl⟩ | ⟨rfl, rfl⟩ <;> rcases hu' with ⟨rfl, rfl⟩ | ⟨rfl, rfl⟩
    · rfl
    · exact absurd (lt_trans h1 h2) (lt_irrefl _)
    · exact absurd (lt_trans h1 h2) (lt_irrefl _)
    · rfl

theorem adjacency_ok {edges : List (Edge n)} (hlt : ∀ e ∈ edges, e.1 < e.2) :
    adjacency edges = .ok fun v => edges.flatMap (ends v) := by
  unfold adjacency
  rw [if_neg]
  rw [List.any_eq_true]
  rintro ⟨e, he, h⟩
  have := hlt e he
  rw [beq_iff_eq] at h
  rw [h] at this
  exact lt_irrefl _ this

/-- The children of `v`. -/
theorem children_spec {edges : List (Edge n)} (hT : TreeList edges) {r : Fin n} {par : Fin n → Option (Fin n)}
    {d : Fin n → ℕ} (h : Rooted edges.toFinset r par d) (v : Fin n) :
    ((edges.flatMap (ends v)).filter fun u => decide (par v ≠ some u)).Nodup ∧
      ∀ u, u ∈ (edges.flatMap (ends v)).filter (fun u => decide (par v ≠ some u)) ↔ par u = some v := by
  have hlt : ∀ e ∈ edges, e.1 < e.2 := fun e he => hT.2.1 e (List.mem_toFinset.2 he)
  refine ⟨(nodup_adj hT.1 hlt v).filter _, fun u => ?_⟩
  rw [List.mem_filter, mem_adj, h.adj, decide_eq_true_eq]
  constructor
  · rintro ⟨h1 | h1, h2⟩
    · exact h1
    · exact absurd h1 h2
  · intro h1
    refine ⟨.inl h1, fun h2 => ?_⟩
    have := h.depth _ _ h1
    have := h.depth _ _ h2
    omega

/-! ### Descendants -/

/-- `u` is `v` or below it. -/
inductive Below (par : Fin n → Option (Fin n)) (v : Fin n) : Fin n → Prop
  | self : Below par v v
  | step {u p} : par u = some p → Below par v p → Below par v u

theorem Below.head {par : Fin n → Option (Fin n)} {v u w : Fin n} (h : par u = some v) (hw : Below par u w) : Below par v w := by
  induction hw with
  | self => exact .step h .self
  | step h1 _ ih => exact .step h1 ih

theorem below_cases {par : Fin n → Option (Fin n)} {v w : Fin n} (h : Below par v w) :
    w = v ∨ ∃ u, par u = some v ∧ Below par u w := by
  induction h with
  | self => exact .inl rfl
  | @step u p h1 h2 ih =>
    rcases ih with rfl | ⟨c, hc, hb⟩
    · exact .inr ⟨u, h1, .self⟩
    · exact .inr ⟨c, hc, .step h1 hb⟩

theorem Below.depth {T : Finset (Edge n)} {r : Fin n} {par : Fin n → Option (Fin n)} {d : Fin n → ℕ}
    (h : Rooted T r par d) {v w : Fin n} (hw : Below par v w) : d v ≤ d w := by
  induction hw with
  | self => exact le_rfl
  | step h1 _ ih => have := h.depth _ _ h1; omega

/-- Two nodes of the same depth have no common descendant. -/
theorem below_unique {T : Finset (Edge n)} {r : Fin n} {par : Fin n → Option (Fin n)} {d : Fin n → ℕ}
    (h : Rooted T r par d) {a b w : Fin n} (ha : Below par a w) (hb : Below par b w) (hd : d a = d b) : a = b := by
  induction ha with
  | self =>
    cases hb with
    | self => rfl
    | step h1 h2 =>
      have := h2.depth h
      have := h.depth _ _ h1
      omega
  | @step u p h1 h2 ih =>
    cases hb with
    | self =>
      have := h2.depth h
      have := h.depth _ _ h1
      omega
    | @step _ p' h1' h2' =>
      rw [h1] at h1'
      cases h1'
      exact ih h2'

theorem below_root {T : Finset (Edge n)} {r : Fin n} {par : Fin n → Option (Fin n)} {d : Fin n → ℕ}
    (h : Rooted T r par d) (v : Fin n) : Below par r v := by
  have key : ∀ k v, d v = k → Below par r v := by
    intro k
    induction k with
    | zero =>
      intro v hv
      by_cases hvr : v = r
      · subst hvr; exact .self
      · obtain ⟨p, hp⟩ := h.parent v hvr
        have := h.depth v p hp
        omega
    | succ k ih =>
      intro v hv
      by_cases hvr : v = r
      · subst hvr; exact .self
      · obtain ⟨p, hp⟩ := h.parent v hvr
        exact .step hp (ih p (by have := h.depth v p hp; omega))
  exact key _ v rfl

/-! ### Every subtree is a well-formed module -/

/-- What is known of the circuit `m` of a subtree. -/
structure SubOk (μ : Var → Measure ℝ) (H : ℕ) (S : Fin n → Prop) (m : Mod) : Prop where
  good : Good μ m
  F1 : m.F = 1
  CH : m.C = H
  R1 : m.R = 1
  T1 : m.tensorR = some 1
  pos : m.PosCh
  rep : m.RepS 0
  sc : ∀ x, x ∈ m.scope.query ↔ ∃ v : Fin n, S v ∧ x = ((v : ℕ) : ℤ)

theorem leaf_ok {H : ℕ} (hH : 1 ≤ H) {em : Fin n → ℕ → ℝ → LogV} (hem : EmOk μ H em) (v : Fin n) :
    SubOk μ H (fun u => u = v) (leafOf H em v) ∧
      Circ.mkLeaf [((v : ℕ) : ℤ)] H 1 (fun _ ch _ => em v ch) = .ok (.leaf [((v : ℕ) : ℤ)] H 1 fun _ ch _ => em v ch) := by
  have hmk : Circ.mkLeaf [((v : ℕ) : ℤ)] H 1 (fun _ ch _ => em v ch) = .ok (.leaf [((v : ℕ) : ℤ)] H 1 fun _ ch _ => em v ch) := by
    have : Scope.mk? [((v : ℕ) : ℤ)] [] = .ok ⟨[((v : ℕ) : ℤ)], []⟩ :=
      (Scope.mk?_ok_iff _ _ _).2 ⟨rfl, ⟨by simp, by simp, by simp, by simp, by simp, by simp⟩⟩
    unfold Circ.mkLeaf
    rw [this]
    rfl
  refine ⟨⟨⟨hmk, trivial, ?_⟩, rfl, rfl, rfl, rfl, hH, Nat.one_pos, ?_⟩, hmk⟩
  · intro i hi ch hch r _
    obtain rfl : i = 0 := by simp at hi; exact hi
    exact hem v ch hch
  · intro x
    show x ∈ [((v : ℕ) : ℤ)] ↔ _
    simp

/-- The number of channels of a transition Sum: one per hidden state, or just one (`init="random"`). -/
def Width (H Co : ℕ) : Prop := Co = H ∨ Co = 1

/-- The logits of every transition are usable. -/
def Usable (H Co : ℕ) (θ : Fin n → ℕ → ℕ → LogV) : Prop := ∀ v, ∀ co < Co, ∃ ci < H, θ v ci co ≠ ⊥

theorem sum_ok {H Co : ℕ} (hCo : 1 ≤ Co) {S : Fin n → Prop} {m : Mod} (h : SubOk μ H S m) {t : ℕ → ℕ → LogV}
    (ht : ∀ co < Co, ∃ ci < H, t ci co ≠ ⊥) : SubOk μ Co S (.sum m Co 1 fun _ ci co _ => t ci co) := by
  refine ⟨⟨h.good, hCo, fun f _ co hco r _ => ?_⟩, h.F1, rfl, rfl, ?_, h.pos, ⟨h.rep, Nat.one_pos⟩, h.sc⟩
  · rw [h.CH]; exact ht co hco
  · simp only [Mod.tensorR, h.T1]
    rfl

/-- An elementwise product of subtrees with disjoint variables. -/
theorem mul_ok {H Co : ℕ} (hH : 1 ≤ H) (hw : Width H Co) {S : Fin n → Prop} {e : Mod} (he : SubOk μ H S e)
    {cs : List (Fin n)} {g : Fin n → Mod} {B : Fin n → Fin n → Prop} (hg : ∀ u ∈ cs, SubOk μ Co (B u) (g u))
    (hSB : ∀ u ∈ cs, ∀ v, S v → ¬ B u v) (hB : cs.Pairwise fun a b => ∀ v, B a v → ¬ B b v) :
    Mod.mkMul false (e :: cs.map g) = .ok (.mul false (e :: cs.map g).length (e :: cs.map g).get) ∧
      SubOk μ H (fun v => S v ∨ ∃ u ∈ cs, B u v) (.mul false (e :: cs.map g).length (e :: cs.map g).get) := by
  set l := e :: cs.map g with hl
  have hall : ∀ m ∈ l, Good μ m ∧ m.F = 1 ∧ m.R = 1 ∧ m.tensorR = some 1 ∧ m.PosCh ∧ m.RepS 0 ∧ (m.C = 1 ∨ m.C = H) := by
    intro m hm
    rcases List.mem_cons.1 hm with rfl | hm
    · exact ⟨he.good, he.F1, he.R1, he.T1, he.pos, he.rep, .inr he.CH⟩
    · obtain ⟨u, hu, rfl⟩ := List.mem_map.1 hm
      have := hg u hu
      refine ⟨this.good, this.F1, this.R1, this.T1, this.pos, this.rep, ?_⟩
      rw [this.CH]
      exact hw.symm
  have hgood : ∀ m ∈ l, Good μ m := fun m hm => (hall m hm).1
  have hF : Mod.SameFeatures l := fun a ha b hb => by rw [(hall a ha).2.1, (hall b hb).2.1]
  have hpw : l.Pairwise fun a b => ∀ x ∈ a.scope.query, x ∉ b.scope.query := by
    rw [hl, List.pairwise_cons, List.pairwise_map]
    constructor
    · intro b hb x hx hx'
      obtain ⟨u, hu, rfl⟩ := List.mem_map.1 hb
      obtain ⟨v, hv, rfl⟩ := (he.sc x).1 hx
      obtain ⟨w, hw', e2⟩ := ((hg u hu).sc _).1 hx'
      have : v = w := by
        apply Fin.ext
        exact_mod_cast e2
      subst this
      exact hSB u hu v hv hw'
    · refine hB.imp_of_mem ?_
      intro a b ha hb hab x hx hx'
      obtain ⟨v, hv, rfl⟩ := ((hg a ha).sc x).1 hx
      obtain ⟨w, hw', e2⟩ := ((hg b hb).sc _).1 hx'
      have : v = w := by
        apply Fin.ext
        exact_mod_cast e2
      subst this
      exact hab v hv hw'
  have hd : Mod.DisjointScopes l := by
    intro i j hi hj hij
    exact List.pairwise_iff_getElem.1 hpw i j hi hj hij
  have hacc := Mod.C69_elementwise_accepts hgood hF
  have hmk : Mod.mkMul false l = .ok (.mul false l.length l.get) := by
    have hch : ∀ a ∈ l, a.C = 1 ∨ ∀ b ∈ l, b.C ≤ a.C := by
      intro a ha
      rcases (hall a ha).2.2.2.2.2.2 with h1 | h1
      · exact .inl h1
      · refine .inr fun b hb => ?_
        rcases (hall b hb).2.2.2.2.2.2 with h2 | h2 <;> omega
    obtain ⟨m, hm⟩ := hacc.1.2 ⟨by simp [hl], hd, hch⟩
    rw [hm, (Mod.mkMul_ok hm).2]
  have hG := (Mod.C69_constructors hgood).1 false _ hF hmk
  obtain ⟨hF', hC', c, hc, hcC⟩ := hacc.2 _ hmk
  have hel : e ∈ l := by simp [hl]
  have hpos : 0 < l.length := by simp [hl]
  have hget : ∀ i : Fin l.length, l.get i ∈ l := fun i => List.get_mem l i
  refine ⟨hmk, hG, ?_, ?_, ?_, ?_, fun i => (hall _ (hget i)).2.2.2.2.1, fun i => (hall _ (hget i)).2.2.2.2.2.1, ?_⟩
  · rw [hF' e hel]; exact he.F1
  · have h1 := hC' e hel
    rw [he.CH] at h1
    rcases (hall c hc).2.2.2.2.2.2 with h2 | h2 <;> rw [hcC] at h1 ⊢ <;> omega
  · rw [Mod.R, dif_pos hpos]; exact (hall _ (hget _)).2.2.1
  · simp only [Mod.tensorR]
    rw [dif_pos hpos, if_pos]
    · exact congrArg some (hall _ (hget _)).2.2.1
    · refine ⟨fun i => by rw [(hall _ (hget i)).2.1, (hall _ (hget _)).2.1], fun i => ?_⟩
      rw [(hall _ (hget i)).2.2.2.1, (hall _ (hget _)).2.2.1]
  · have hck := (Mod.mkMul_ok hmk).1
    obtain ⟨hne, hdd, -, -⟩ := Mod.checkMul_ok hck
    have hsc := (Mod.scopes (cs := l.get) (fun i => (Mod.scope_facts (hgood _ (hget i))).1)
      (fun i => (Mod.scope_facts (hgood _ (hget i))).2.1) (by rw [List.ofFn_get]; exact hne)
      (by rw [List.ofFn_get]; exact hdd)).1.2.2
    intro x
    rw [Mod.scope, hsc x]
    constructor
    · rintro ⟨i, hi⟩
      rcases List.mem_cons.1 (hget i) with e1 | e1
      · rw [e1] at hi
        obtain ⟨v, hv, rfl⟩ := (he.sc x).1 hi
        exact ⟨v, .inl hv, rfl⟩
      · obtain ⟨u, hu, e2⟩ := List.mem_map.1 e1
        rw [← e2] at hi
        obtain ⟨v, hv, rfl⟩ := ((hg u hu).sc x).1 hi
        exact ⟨v, .inr ⟨u, hu, hv⟩, rfl⟩
    · rintro ⟨v, hv | ⟨u, hu, hv⟩, rfl⟩
      · obtain ⟨i, hi⟩ := List.mem_iff_get.1 hel
        exact ⟨i, by rw [hi]; exact (he.sc _).2 ⟨v, hv, rfl⟩⟩
      · obtain ⟨i, hi⟩ := List.mem_iff_get.1 (show g u ∈ l from List.mem_cons_of_mem _ (List.mem_map.2 ⟨u, hu, rfl⟩))
        exact ⟨i, by rw [hi]; exact ((hg u hu).sc _).2 ⟨v, hv, rfl⟩⟩

theorem SubOk.congr {H : ℕ} {S S' : Fin n → Prop} {m : Mod} (h : SubOk μ H S m) (he : ∀ v, S v ↔ S' v) : SubOk μ H S' m :=
  ⟨h.good, h.F1, h.CH, h.R1, h.T1, h.pos, h.rep, fun x => by rw [h.sc x]; simp only [he]⟩

section tree

variable {edges : List (Edge n)} {r : Fin n} {par : Fin n → Option (Fin n)} {d : Fin n → ℕ} {H Co : ℕ}
  {em : Fin n → ℕ → ℝ → LogV} {θ : Fin n → ℕ → ℕ → LogV}

/-- The children of `v`, in the order of the adjacency list. -/
abbrev kids (edges : List (Edge n)) (par : Fin n → Option (Fin n)) (v : Fin n) : List (Fin n) :=
  (edges.flatMap (ends v)).filter fun u => decide (par v ≠ some u)

/-- The message module of child `u`. -/
abbrev msgOf (edges : List (Edge n)) (H Co : ℕ) (em : Fin n → ℕ → ℝ → LogV) (θ : Fin n → ℕ → ℕ → LogV) (k : ℕ) (v u : Fin n) : Mod :=
  .sum (net (fun v => edges.flatMap (ends v)) H Co em θ k u (some v)) Co 1 fun _ ci co _ => θ u ci co

theorem net_succ (k : ℕ) (v : Fin n) : net (fun v => edges.flatMap (ends v)) H Co em θ (k + 1) v (par v) =
    joined (leafOf H em v) ((kids edges par v).map (msgOf edges H Co em θ k v)) := rfl

theorem pairwise_kids (hT : TreeList edges) (h : Rooted edges.toFinset r par d) (v : Fin n) :
    (kids edges par v).Pairwise fun a b => ∀ w, Below par a w → ¬ Below par b w := by
  obtain ⟨hnd, hmem⟩ := children_spec hT h v
  refine hnd.imp_of_mem ?_
  intro a b ha hb hab w hw hw'
  have h1 := h.depth a v ((hmem a).1 ha)
  have h2 := h.depth b v ((hmem b).1 hb)
  exact hab (below_unique h hw hw' (by omega))

theorem sub_ok (hT : TreeList edges) (h : Rooted edges.toFinset r par d) (hH : 1 ≤ H) (hw : Width H Co) (hem : EmOk μ H em)
    (hθ : Usable H Co θ) : ∀ k v, (∀ w, Below par v w → d w < k + d v) →
      SubOk μ H (Below par v) (net (fun v => edges.flatMap (ends v)) H Co em θ k v (par v)) := by
  have hCo : 1 ≤ Co := by rcases hw with h1 | h1 <;> omega
  intro k
  induction k with
  | zero => intro v hv; have := hv v .self; omega
  | succ k ih =>
    intro v hv
    rw [net_succ]
    obtain ⟨hnd, hmem⟩ := children_spec hT h v
    have hmsg : ∀ u ∈ kids edges par v, SubOk μ Co (Below par u) (msgOf edges H Co em θ k v u) := by
      intro u hu
      have hp := (hmem u).1 hu
      have := ih u (fun w hw => by have := h.depth u v hp; have := hv w (.head hp hw); omega)
      rw [hp] at this
      exact sum_ok hCo this (hθ u)
    unfold joined
    by_cases hk : kids edges par v = []
    · rw [if_pos (by simp [hk])]
      refine (leaf_ok hH hem v).1.congr fun w => ⟨?_, fun hb => ?_⟩
      · rintro rfl; exact .self
      · rcases below_cases hb with h1 | ⟨u, hu, -⟩
        · exact h1
        · have : u ∈ kids edges par v := (hmem u).2 hu
          rw [hk] at this
          cases this
    · rw [if_neg (by simp [hk])]
      refine (mul_ok hH hw (leaf_ok hH hem v).1 hmsg ?_ (pairwise_kids hT h v)).2.congr fun w => ?_
      · rintro u hu w rfl hb
        have h1 := h.depth u w ((hmem u).1 hu)
        have := hb.depth h
        omega
      · constructor
        · rintro (rfl | ⟨u, hu, hb⟩)
          · exact .self
          · exact .head ((hmem u).1 hu) hb
        · intro hb
          rcases below_cases hb with h1 | ⟨u, hu, hb⟩
          · exact .inl h1
          · exact .inr ⟨u, (hmem u).2 hu, hb⟩

end tree

end Verif.Hclt

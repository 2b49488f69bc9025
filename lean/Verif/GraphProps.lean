import Verif.Graph
import Verif.ScopeProps
import Mathlib.Logic.Relation
import Mathlib.Data.Finset.Card
import Mathlib.Algebra.BigOperators.Group.Finset.Basic
import Mathlib.Algebra.Order.BigOperators.Group.Finset
import Mathlib.Data.List.Chain
import Mathlib.Tactic.Ring
/-
C05 and C49: graph traversals.
-/
namespace Verif.Graph
variable {K : Type} [DecidableEq K]

/-- Edge relation: `b` is a child of `a`. -/
def Edge (ch : K → List K) (a b : K) : Prop := b ∈ ch a

/-- `b` can be reached from `a` by following children (zero or more steps). -/
abbrev Reach (ch : K → List K) : K → K → Prop := Relation.ReflTransGen (Edge ch)

/-- There is a cycle reachable from `a`. -/
def HasCycle (ch : K → List K) (a : K) : Prop := ∃ b, Reach ch a b ∧ Relation.TransGen (Edge ch) b b

/-- `U` is a finite set of nodes closed under children. -/
def Closed (ch : K → List K) (U : Finset K) : Prop := ∀ x ∈ U, ∀ c ∈ ch x, c ∈ U

/-- children before parents: in `l`, all children of a node occur strictly before it. -/
def ChildrenFirst (ch : K → List K) (l : List K) : Prop :=
  ∀ l1 x l2, l = l1 ++ x :: l2 → ∀ c ∈ ch x, c ∈ l1

/-! ### post_order -/

omit [DecidableEq K] in
theorem childrenFirst_snoc {ch : K → List K} {l : List K} {v : K} (h : ChildrenFirst ch l)
    (hv : ∀ c ∈ ch v, c ∈ l) : ChildrenFirst ch (l ++ [v]) := by
  intro l1 x l2 he c hc
  rcases List.eq_nil_or_concat l2 with h0 | ⟨l3, y, rfl⟩
  · subst h0
    have := List.append_inj_right' he (by simp)
    have h2 := List.append_inj_left' he (by simp)
    simp only [List.cons.injEq, and_true] at this
    subst this; subst h2
    exact hv c hc
  · have he' : l ++ [v] = (l1 ++ x :: l3) ++ [y] := by rw [he]; simp
    have h2 := List.append_inj_left' he' (by simp)
    exact h l1 x l3 h2 c hc

/-- What a finished call has done to the state. -/
structure Post (ch : K → List K) (U : Finset K) (vis res : List K) (roots : List K)
    (vis' res' : List K) : Prop where
  mono : ∀ x ∈ vis, x ∈ vis'
  sub : ∀ x ∈ vis', x ∈ U
  root : ∀ r ∈ roots, r ∈ vis'
  reach : ∀ x ∈ vis', x ∈ vis ∨ ∃ r ∈ roots, Reach ch r x
  resNodup : res'.Nodup
  resMem : ∀ x, x ∈ res' ↔ x ∈ res ∨ (x ∈ vis' ∧ x ∉ vis)
  closed : ∀ x ∈ vis', x ∉ vis → ∀ c ∈ ch x, c ∈ vis'

theorem dfs_spec (ch : K → List K) (U : Finset K) (hU : Closed ch U) :
    ∀ (n : Nat) (v : K) (vis res : List K), v ∈ U → (∀ x ∈ vis, x ∈ U) → res.Nodup →
      (∀ x ∈ res, x ∈ vis) → (U.filter (· ∉ vis)).card < n →
      ∃ vis' res', dfs ch n v (vis, res) = some (vis', res') ∧ Post ch U vis res [v] vis' res' := by
  intro n
  induction n with
  | zero => intro v vis res _ _ _ _ h; omega
  | succ n ih =>
    intro v vis res hv hvis hnd hrv hcard
    rw [dfs]
    dsimp only
    by_cases hmem : v ∈ vis
    · rw [if_pos hmem]
      exact ⟨vis, res, rfl, ⟨fun x h => h, hvis, by simpa using hmem, fun x h => .inl h, hnd,
        fun x => ⟨fun h => .inl h, fun h => h.elim id (fun h => absurd h.1 h.2)⟩,
        fun x h h' => absurd h h'⟩⟩
    · rw [if_neg hmem]
      -- the fold over the children
      have hfold : ∀ (cs : List K) (vis1 res1 : List K), (∀ c ∈ cs, c ∈ U) → (∀ x ∈ vis1, x ∈ U) →
          res1.Nodup → (∀ x ∈ res1, x ∈ vis1) → (U.filter (· ∉ vis1)).card < n →
          ∃ vis' res', cs.foldlM (fun st c => dfs ch n c st) (vis1, res1) = some (vis', res') ∧
            Post ch U vis1 res1 cs vis' res' := by
        intro cs
        induction cs with
        | nil =>
          intro vis1 res1 _ h1 h2 h3 _
          exact ⟨vis1, res1, rfl, ⟨fun x h => h, h1, by simp, fun x h => .inl h, h2,
            fun x => ⟨fun h => .inl h, fun h => h.elim id (fun h => absurd h.1 h.2)⟩,
            fun x h h' => absurd h h'⟩⟩
        | cons c cs ihc =>
          intro vis1 res1 hcs h1 h2 h3 h4
          obtain ⟨va, ra, ha, pa⟩ := ih c vis1 res1 (hcs c (by simp)) h1 h2 h3 h4
          have hsub : ∀ x ∈ ra, x ∈ va := by
            intro x hx
            rcases (pa.resMem x).mp hx with h | h
            · exact pa.mono x (h3 x h)
            · exact h.1
          have hle : (U.filter (· ∉ va)).card ≤ (U.filter (· ∉ vis1)).card := by
            apply Finset.card_le_card
            intro x hx
            simp only [Finset.mem_filter] at hx ⊢
            exact ⟨hx.1, fun h => hx.2 (pa.mono x h)⟩
          obtain ⟨vb, rb, hb, pb⟩ := ihc va ra (fun c hc => hcs c (by simp [hc])) pa.sub pa.resNodup hsub
            (by omega)
          refine ⟨vb, rb, ?_, ⟨?_, pb.sub, ?_, ?_, pb.resNodup, ?_, ?_⟩⟩
          · rw [List.foldlM_cons, ha]
            exact hb
          · exact fun x hx => pb.mono x (pa.mono x hx)
          · intro r hr
            rcases List.mem_cons.mp hr with h | h
            · subst h; exact pb.mono _ (pa.root _ (by simp))
            · exact pb.root r h
          · intro x hx
            rcases pb.reach x hx with h | ⟨r, hr, hrx⟩
            · rcases pa.reach x h with h | ⟨r, hr, hrx⟩
              · exact .inl h
              · simp only [List.mem_singleton] at hr
                subst hr
                exact .inr ⟨r, by simp, hrx⟩
            · exact .inr ⟨r, by simp [hr], hrx⟩
          · intro x
            rw [pb.resMem, pa.resMem]
            constructor
            · rintro ((h | h) | h)
              · exact .inl h
              · exact .inr ⟨pb.mono x h.1, h.2⟩
              · exact .inr ⟨h.1, fun h' => h.2 (pa.mono x h')⟩
            · rintro (h | h)
              · exact .inl (.inl h)
              · by_cases hx : x ∈ va
                · exact .inl (.inr ⟨hx, h.2⟩)
                · exact .inr ⟨h.1, hx⟩
          · intro x hx hnx d hd
            by_cases hxa : x ∈ va
            · exact pb.mono d (pa.closed x hxa hnx d hd)
            · exact pb.closed x hx hxa d hd
      have hcard' : (U.filter (· ∉ v :: vis)).card < n := by
        have : (U.filter (· ∉ v :: vis)).card < (U.filter (· ∉ vis)).card := by
          apply Finset.card_lt_card
          constructor
          · intro x hx
            simp only [Finset.mem_filter, List.mem_cons, not_or] at hx ⊢
            exact ⟨hx.1, hx.2.2⟩
          · intro hsub
            have := hsub (Finset.mem_filter.mpr ⟨hv, hmem⟩)
            simp at this
        omega
      obtain ⟨vis', res', hf, pf⟩ := hfold (ch v) (v :: vis) res (hU v hv)
        (fun x hx => by rcases List.mem_cons.mp hx with h | h; exacts [h ▸ hv, hvis x h]) hnd
        (fun x hx => by simp [hrv x hx]) hcard'
      refine ⟨vis', res' ++ [v], by rw [hf], ⟨?_, pf.sub, ?_, ?_, ?_, ?_, ?_⟩⟩
      · exact fun x hx => pf.mono x (by simp [hx])
      · simpa using pf.mono v (by simp)
      · intro x hx
        rcases pf.reach x hx with h | ⟨r, hr, hrx⟩
        · rcases List.mem_cons.mp h with h | h
          · subst h; exact .inr ⟨x, by simp, Relation.ReflTransGen.refl⟩
          · exact .inl h
        · exact .inr ⟨v, by simp, Relation.ReflTransGen.head hr hrx⟩
      · rw [List.nodup_append]
        refine ⟨pf.resNodup, by simp, ?_⟩
        intro a ha b hb hab
        simp only [List.mem_singleton] at hb
        rw [hb] at hab
        rw [hab] at ha
        rcases (pf.resMem v).mp ha with h | h
        · exact hmem (hrv v h)
        · exact h.2 (by simp)
      · intro x
        rw [List.mem_append, pf.resMem]
        simp only [List.mem_cons, List.not_mem_nil, or_false, not_or]
        constructor
        · rintro ((h | h) | h)
          · exact .inl h
          · exact .inr ⟨h.1, h.2.2⟩
          · subst h; exact .inr ⟨pf.mono x (by simp), hmem⟩
        · rintro (h | h)
          · exact .inl (.inl h)
          · by_cases hxv : x = v
            · exact .inr hxv
            · exact .inl (.inr ⟨h.1, hxv, h.2⟩)
      · intro x hx hnx c hc
        by_cases hxv : x = v
        · subst hxv; exact pf.root c hc
        · exact pf.closed x hx (by simp [hxv, hnx]) c hc

/-- In a graph with a rank that decreases along edges, `dfs` keeps "children first". -/
theorem dfs_order (ch : K → List K) (rk : K → Nat) (hrk : ∀ a, ∀ c ∈ ch a, rk c < rk a) (U : Finset K)
    (hU : Closed ch U) :
    ∀ (n : Nat) (v : K) (vis res vis' res' : List K), v ∈ U → (∀ x ∈ vis, x ∈ U) → res.Nodup →
      (∀ x ∈ res, x ∈ vis) → (U.filter (· ∉ vis)).card < n →
      (∀ y ∈ vis, y ∉ res → rk v < rk y) → ChildrenFirst ch res →
      dfs ch n v (vis, res) = some (vis', res') → ChildrenFirst ch res' := by
  intro n
  induction n with
  | zero => intro v vis res vis' res' _ _ _ _ h; omega
  | succ n ih =>
    intro v vis res vis' res' hv hvis hnd hrv hcard hstack hcf hdfs
    obtain ⟨vf, rf, hfull, pfull⟩ := dfs_spec ch U hU (n + 1) v vis res hv hvis hnd hrv hcard
    rw [hdfs] at hfull
    obtain ⟨rfl, rfl⟩ : vis' = vf ∧ res' = rf := by simpa using hfull
    rw [dfs] at hdfs
    dsimp only at hdfs
    by_cases hmem : v ∈ vis
    · rw [if_pos hmem] at hdfs
      simp only [Option.some.injEq, Prod.mk.injEq] at hdfs
      rw [← hdfs.2]; exact hcf
    · rw [if_neg hmem] at hdfs
      have hfold : ∀ (cs : List K) (vis1 res1 vis2 res2 : List K), (∀ c ∈ cs, c ∈ U) → (∀ x ∈ vis1, x ∈ U) →
          res1.Nodup → (∀ x ∈ res1, x ∈ vis1) → (U.filter (· ∉ vis1)).card < n →
          (∀ c ∈ cs, ∀ y ∈ vis1, y ∉ res1 → rk c < rk y) → ChildrenFirst ch res1 →
          cs.foldlM (fun st c => dfs ch n c st) (vis1, res1) = some (vis2, res2) → ChildrenFirst ch res2 := by
        intro cs
        induction cs with
        | nil =>
          intro vis1 res1 vis2 res2 _ _ _ _ _ _ h hf
          simp only [List.foldlM_nil] at hf
          have : (vis1, res1) = (vis2, res2) := by simpa using hf
          simp only [Prod.mk.injEq] at this
          rw [← this.2]; exact h
        | cons c cs ihc =>
          intro vis1 res1 vis2 res2 hcs h1 h2 h3 h4 h5 h6 hf
          obtain ⟨va, ra, ha, pa⟩ := dfs_spec ch U hU n c vis1 res1 (hcs c (by simp)) h1 h2 h3 h4
          rw [List.foldlM_cons, ha] at hf
          have hsub : ∀ x ∈ ra, x ∈ va := by
            intro x hx
            rcases (pa.resMem x).mp hx with h | h
            · exact pa.mono x (h3 x h)
            · exact h.1
          have hle : (U.filter (· ∉ va)).card ≤ (U.filter (· ∉ vis1)).card := by
            apply Finset.card_le_card
            intro x hx
            simp only [Finset.mem_filter] at hx ⊢
            exact ⟨hx.1, fun h => hx.2 (pa.mono x h)⟩
          apply ihc va ra vis2 res2 (fun c hc => hcs c (by simp [hc])) pa.sub pa.resNodup hsub (by omega)
            _ (ih c vis1 res1 va ra (hcs c (by simp)) h1 h2 h3 h4 (h5 c (by simp)) h6 ha) hf
          intro c' hc' y hy hny
          have hy1 : y ∈ vis1 := by
            by_contra h
            exact hny ((pa.resMem y).mpr (.inr ⟨hy, h⟩))
          have hny1 : y ∉ res1 := fun h => hny ((pa.resMem y).mpr (.inl h))
          exact h5 c' (by simp [hc']) y hy1 hny1
      cases hr : (ch v).foldlM (fun st c => dfs ch n c st) (v :: vis, res) with
      | none => rw [hr] at hdfs; simp at hdfs
      | some st =>
        rw [hr] at hdfs
        obtain ⟨va, ra⟩ := st
        simp only [Option.some.injEq, Prod.mk.injEq] at hdfs
        obtain ⟨rfl, rfl⟩ := hdfs
        have hcard' : (U.filter (· ∉ v :: vis)).card < n := by
          have : (U.filter (· ∉ v :: vis)).card < (U.filter (· ∉ vis)).card := by
            apply Finset.card_lt_card
            constructor
            · intro x hx
              simp only [Finset.mem_filter, List.mem_cons, not_or] at hx ⊢
              exact ⟨hx.1, hx.2.2⟩
            · intro hsub
              have := hsub (Finset.mem_filter.mpr ⟨hv, hmem⟩)
              simp at this
          omega
        have hcfa := hfold (ch v) (v :: vis) res va ra (hU v hv)
          (fun x hx => by rcases List.mem_cons.mp hx with h | h; exacts [h ▸ hv, hvis x h]) hnd
          (fun x hx => by simp [hrv x hx]) hcard'
          (by
            intro c hc y hy hny
            rcases List.mem_cons.mp hy with h | h
            · subst h; exact hrk y c hc
            · exact lt_trans (hrk v c hc) (hstack y h hny)) hcf hr
        apply childrenFirst_snoc hcfa
        intro c hc
        have hcv : c ∈ va := pfull.closed v (pfull.root v (by simp)) hmem c hc
        have hne : c ≠ v := by
          intro h; have := hrk v c hc; rw [h] at this; omega
        by_cases hcvis : c ∈ vis
        · by_cases hcres : c ∈ res
          · have := (pfull.resMem c).mpr (.inl hcres)
            rcases List.mem_append.mp this with h | h
            · exact h
            · exact absurd (List.mem_singleton.mp h) hne
          · have := hstack c hcvis hcres
            have := hrk v c hc
            omega
        · have := (pfull.resMem c).mpr (.inr ⟨hcv, hcvis⟩)
          rcases List.mem_append.mp this with h | h
          · exact h
          · exact absurd (List.mem_singleton.mp h) hne

omit [DecidableEq K] in
theorem reach_closed {ch : K → List K} {S : K → Prop} (hS : ∀ x, S x → ∀ c ∈ ch x, S c) {a b : K}
    (ha : S a) (h : Reach ch a b) : S b := by
  induction h with
  | refl => exact ha
  | tail _ h2 ih => exact hS _ ih _ h2

/-- **C05, post_order.** On every finite graph (cycles and sharing allowed) `post_order` terminates and
lists every reachable region exactly once and nothing else; if the graph is acyclic (`rk` decreases along
edges) every region comes after all regions of its partitions. -/
theorem C05_post_order (ch : K → List K) (U : Finset K) (hU : Closed ch U) (root : K) (hr : root ∈ U)
    (fuel : Nat) (hfuel : U.card < fuel) :
    ∃ l, postOrder ch fuel root = some l ∧ l.Nodup ∧ (∀ x, x ∈ l ↔ Reach ch root x) ∧
      (∀ rk : K → Nat, (∀ a, ∀ c ∈ ch a, rk c < rk a) → ChildrenFirst ch l) := by
  have hc : (U.filter (· ∉ ([] : List K))).card < fuel := by
    have : (U.filter (· ∉ ([] : List K))).card ≤ U.card := Finset.card_filter_le _ _
    omega
  obtain ⟨vis, res, h, p⟩ := dfs_spec ch U hU fuel root [] [] hr (by simp) (by simp) (by simp) hc
  refine ⟨res, by rw [postOrder, h]; rfl, p.resNodup, ?_, ?_⟩
  · intro x
    rw [p.resMem]
    constructor
    · rintro (h | ⟨h, _⟩)
      · simp at h
      · rcases p.reach x h with h | ⟨r, hr, hrx⟩
        · simp at h
        · simp only [List.mem_singleton] at hr
          subst hr; exact hrx
    · intro hx
      refine .inr ⟨?_, by simp⟩
      exact reach_closed (S := (· ∈ vis)) (fun x hx c hc => p.closed x hx (by simp) c hc)
        (p.root root (by simp)) hx
  · intro rk hrk
    refine dfs_order ch rk hrk U hU fuel root [] [] vis res hr (by simp) (by simp) (by simp) hc (by simp) ?_ h
    intro l1 x l2 he
    simp at he

/-! ### regions -/

theorem sum_filter_erase (U : Finset K) (f : K → Nat) (vis : List K) (v : K) (hv : v ∈ U) (hn : v ∉ vis) :
    ∑ x ∈ U.filter (· ∉ vis), f x = f v + ∑ x ∈ U.filter (· ∉ v :: vis), f x := by
  have : U.filter (· ∉ vis) = insert v (U.filter (· ∉ v :: vis)) := by
    ext x
    simp only [Finset.mem_filter, Finset.mem_insert, List.mem_cons, not_or]
    constructor
    · rintro ⟨h1, h2⟩
      by_cases h : x = v
      · exact .inl h
      · exact .inr ⟨h1, h, h2⟩
    · rintro (h | ⟨h1, _, h2⟩)
      · subst h; exact ⟨hv, hn⟩
      · exact ⟨h1, h2⟩
  rw [this, Finset.sum_insert (by simp)]

theorem regionsLoop_spec (ch : K → List K) (U : Finset K) (hU : Closed ch U) :
    ∀ (n : Nat) (st vis : List K), (∀ x ∈ st, x ∈ U) → (∀ x ∈ vis, x ∈ U) → vis.Nodup →
      (∀ x ∈ vis, ∀ c ∈ ch x, c ∈ vis ∨ c ∈ st) →
      st.length + ∑ x ∈ U.filter (· ∉ vis), (ch x).length < n →
      ∃ res, regionsLoop ch n st vis = some res ∧ res.Nodup ∧ (∀ x ∈ vis, x ∈ res) ∧ (∀ x ∈ st, x ∈ res) ∧
        (∀ x ∈ res, ∀ c ∈ ch x, c ∈ res) ∧ (∀ x ∈ res, x ∈ vis ∨ ∃ r ∈ st, Reach ch r x) := by
  intro n
  induction n with
  | zero => intro st vis _ _ _ _ h; omega
  | succ n ih =>
    intro st vis hst hvis hnd hcl hlt
    cases st with
    | nil =>
      exact ⟨vis, rfl, hnd, fun x h => h, by simp, fun x hx c hc => (hcl x hx c hc).elim id (by simp),
        fun x h => .inl h⟩
    | cons v st =>
      rw [regionsLoop]
      rw [List.length_cons] at hlt
      by_cases hv : v ∈ vis
      · rw [if_pos hv]
        obtain ⟨res, h1, h2, h3, h4, h5, h6⟩ := ih st vis (fun x hx => hst x (by simp [hx])) hvis hnd
          (fun x hx c hc => by
            rcases hcl x hx c hc with h | h
            · exact .inl h
            · rcases List.mem_cons.mp h with h | h
              · exact .inl (h ▸ hv)
              · exact .inr h) (by omega)
        refine ⟨res, h1, h2, h3, ?_, h5, ?_⟩
        · intro x hx
          rcases List.mem_cons.mp hx with h | h
          · exact h ▸ h3 v hv
          · exact h4 x h
        · intro x hx
          rcases h6 x hx with h | ⟨r, hr, hrx⟩
          · exact .inl h
          · exact .inr ⟨r, by simp [hr], hrx⟩
      · rw [if_neg hv]
        have hvU : v ∈ U := hst v (by simp)
        have hsum := sum_filter_erase U (fun x => (ch x).length) vis v hvU hv
        obtain ⟨res, h1, h2, h3, h4, h5, h6⟩ := ih ((ch v).reverse ++ st) (v :: vis)
          (fun x hx => by
            rcases List.mem_append.mp hx with h | h
            · exact hU v hvU x (List.mem_reverse.mp h)
            · exact hst x (by simp [h]))
          (fun x hx => by rcases List.mem_cons.mp hx with h | h; exacts [h ▸ hvU, hvis x h])
          (List.nodup_cons.mpr ⟨hv, hnd⟩)
          (fun x hx c hc => by
            rcases List.mem_cons.mp hx with h | h
            · subst h; exact .inr (by simp [hc])
            · rcases hcl x h c hc with h | h
              · exact .inl (by simp [h])
              · rcases List.mem_cons.mp h with h | h
                · exact .inl (by simp [h])
                · exact .inr (by simp [h]))
          (by rw [List.length_append, List.length_reverse]; omega)
        refine ⟨res, h1, h2, fun x hx => h3 x (by simp [hx]), ?_, h5, ?_⟩
        · intro x hx
          rcases List.mem_cons.mp hx with h | h
          · exact h ▸ h3 v (by simp)
          · exact h4 x (by simp [h])
        · intro x hx
          rcases h6 x hx with h | ⟨r, hr, hrx⟩
          · rcases List.mem_cons.mp h with h | h
            · exact .inr ⟨v, by simp, h ▸ Relation.ReflTransGen.refl⟩
            · exact .inl h
          · rcases List.mem_append.mp hr with h | h
            · exact .inr ⟨v, by simp, Relation.ReflTransGen.head (List.mem_reverse.mp h) hrx⟩
            · exact .inr ⟨r, by simp [h], hrx⟩

/-- **C05, regions.** The `regions` traversal terminates and returns exactly the reachable regions, each
once. -/
theorem C05_regions (ch : K → List K) (U : Finset K) (hU : Closed ch U) (root : K) (hr : root ∈ U)
    (fuel : Nat) (hfuel : 1 + ∑ x ∈ U, (ch x).length < fuel) :
    ∃ res, regionsLoop ch fuel [root] [] = some res ∧ res.Nodup ∧ ∀ x, x ∈ res ↔ Reach ch root x := by
  obtain ⟨res, h1, h2, _, h4, h5, h6⟩ := regionsLoop_spec ch U hU fuel [root] [] (by simpa using hr)
    (by simp) (by simp) (by simp) (by simpa using hfuel)
  refine ⟨res, h1, h2, ?_⟩
  intro x
  constructor
  · intro hx
    rcases h6 x hx with h | ⟨r, hr', hrx⟩
    · simp at h
    · simp only [List.mem_singleton] at hr'
      subst hr'; exact hrx
  · intro hx
    exact reach_closed (S := (· ∈ res)) h5 (h4 root (by simp)) hx

/-! ### add_partition -/

open Verif.Scope (Reachable C03_allPairwiseDisjoint C02_joinAll_is_union C01_reachable_valid setEq_iff)

/-- Specification: the parts have pairwise disjoint variables and jointly cover the region. -/
def ValidPartition (g : RG) (r : Nat) (regions : List Nat) : Prop :=
  regions ≠ [] ∧
  (∀ i j (hi : i < regions.length) (hj : j < regions.length), i < j →
    ∀ x ∈ (g.scope regions[i]).query, x ∉ (g.scope regions[j]).query) ∧
  (∀ x, x ∈ (g.scope r).query ↔ ∃ k ∈ regions, x ∈ (g.scope k).query)

/-- **C05, add_partition.** It succeeds exactly for valid partitions, records the partition and changes
nothing else; otherwise it raises (and nothing changes). -/
theorem C05_add_partition_iff (g : RG) (hg : ∀ k, Reachable (g.scope k)) (r : Nat) (regions : List Nat) :
    ((∃ g', addPartition g r regions = .ok g') ↔ ValidPartition g r regions) ∧
    (∀ g', addPartition g r regions = .ok g' → g'.scope = g.scope ∧
      g'.parts r = g.parts r ++ [regions] ∧ ∀ k, k ≠ r → g'.parts k = g.parts k) := by
  obtain ⟨b, hb, hbiff⟩ := C03_allPairwiseDisjoint (l := regions.map g.scope) (by
    intro t ht
    obtain ⟨k, _, rfl⟩ := List.mem_map.mp ht
    exact hg k)
  have hpw : b = true ↔ (∀ i j (hi : i < regions.length) (hj : j < regions.length), i < j →
      ∀ x ∈ (g.scope regions[i]).query, x ∉ (g.scope regions[j]).query) := by
    rw [hbiff]
    constructor
    · intro h i j hi hj hij
      have := h i j (by simpa using hi) (by simpa using hj) hij
      simpa using this
    · intro h i j hi hj hij
      have := h i j (by simpa using hi) (by simpa using hj) hij
      simpa using this
  unfold addPartition
  rw [hb]
  simp only [bind, Except.bind, pure, Except.pure, throw, throwThe, MonadExceptOf.throw]
  cases b with
  | false =>
    simp only [Bool.not_false, if_true]
    refine ⟨⟨by rintro ⟨g', h⟩; simp at h, ?_⟩, by simp⟩
    intro h
    exact absurd (hpw.mpr h.2.1) (by simp)
  | true =>
    simp only [Bool.not_true, Bool.false_eq_true, if_false]
    by_cases hne : regions = []
    · subst hne
      simp only [List.map_nil, Scope.joinAll]
      refine ⟨⟨by rintro ⟨g', h⟩; simp at h, fun h => absurd rfl h.1⟩, by simp⟩
    · obtain ⟨s, hs, hq, _⟩ := C02_joinAll_is_union (l := regions.map g.scope) (by simpa using hne) (by
        intro t ht
        obtain ⟨k, _, rfl⟩ := List.mem_map.mp ht
        exact hg k)
      rw [hs]
      dsimp only
      have heq : Scope.equalQuery s (g.scope r) = true ↔
          ∀ x, x ∈ (g.scope r).query ↔ ∃ k ∈ regions, x ∈ (g.scope k).query := by
        unfold Scope.equalQuery
        rw [setEq_iff]
        constructor
        · intro h x; rw [← h x, hq]; simp
        · intro h x; rw [h x, hq]; simp
      cases he : Scope.equalQuery s (g.scope r) with
      | false =>
        simp only [Bool.not_false, if_true]
        refine ⟨⟨by rintro ⟨g', h⟩; simp at h, ?_⟩, by simp⟩
        intro h
        have := heq.mpr h.2.2
        rw [he] at this
        simp at this
      | true =>
        simp only [Bool.not_true, Bool.false_eq_true, if_false]
        refine ⟨⟨fun _ => ⟨hne, hpw.mp rfl, heq.mp he⟩, fun _ => ⟨_, rfl⟩⟩, ?_⟩
        intro g' hg'
        simp only [Except.ok.injEq] at hg'
        subst hg'
        refine ⟨rfl, by simp, ?_⟩
        intro k hk
        simp [hk]

/-- Region graphs obtainable by calls of `add_partition`, from regions without partitions. -/
inductive Built (scope : Nat → Scope) : RG → Prop
  | init : Built scope ⟨scope, fun _ => []⟩
  | add {g g' : RG} {r : Nat} {regions : List Nat} : Built scope g → addPartition g r regions = .ok g' →
      Built scope g'

/-- **C05, histories.** After any history of `add_partition` calls every recorded partition is valid. -/
theorem C05_history (scope : Nat → Scope) (hs : ∀ k, Reachable (scope k)) (g : RG) (h : Built scope g) :
    g.scope = scope ∧ ∀ r, ∀ p ∈ g.parts r, ValidPartition g r p := by
  induction h with
  | init => exact ⟨rfl, by simp⟩
  | @add g g' r regions _ hadd ih =>
    obtain ⟨ih1, ih2⟩ := ih
    have hg : ∀ k, Reachable (g.scope k) := by rw [ih1]; exact hs
    obtain ⟨hiff, hres⟩ := C05_add_partition_iff g hg r regions
    obtain ⟨h1, h2, h3⟩ := hres g' hadd
    have hval : ∀ r p, ValidPartition g r p → ValidPartition g' r p := by
      intro r p hp
      unfold ValidPartition
      rw [h1]
      exact hp
    refine ⟨by rw [h1, ih1], ?_⟩
    intro k p hp
    by_cases hk : k = r
    · subst hk
      rw [h2] at hp
      rcases List.mem_append.mp hp with h | h
      · exact hval _ _ (ih2 _ p h)
      · simp only [List.mem_singleton] at h
        subst h
        exact hval _ _ (hiff.mp ⟨g', hadd⟩)
    · rw [h3 k hk] at hp
      exact hval _ _ (ih2 k p hp)

/-- If in addition every partition has at least two parts and all parts are non-empty, the number of
variables decreases along edges, so `C05_post_order` applies with children first. -/
theorem C05_acyclic (scope : Nat → Scope) (hs : ∀ k, Reachable (scope k)) (g : RG) (h : Built scope g)
    (hne : ∀ k, (scope k).query ≠ []) (h2 : ∀ r, ∀ p ∈ g.parts r, 2 ≤ p.length) (r : Nat) :
    ∀ c ∈ g.children r, (g.scope c).query.length < (g.scope r).query.length := by
  obtain ⟨hsc, hval⟩ := C05_history scope hs g h
  intro c hc
  obtain ⟨p, hp, hcp⟩ := List.mem_flatten.mp hc
  obtain ⟨_, hdis, hcov⟩ := hval r p hp
  obtain ⟨i, hi, rfl⟩ := List.getElem_of_mem hcp
  -- another part
  obtain ⟨j, hj, hij⟩ : ∃ j, j < p.length ∧ j ≠ i := by
    have := h2 r p hp
    by_cases h0 : i = 0
    · exact ⟨1, by omega, by omega⟩
    · exact ⟨0, by omega, by omega⟩
  have hnd : ∀ k, (g.scope k).query.Nodup := fun k => by
    rw [hsc]; exact (C01_reachable_valid (hs k)).query_nodup
  obtain ⟨y, hy⟩ := List.exists_mem_of_ne_nil _ (by rw [hsc]; exact hne p[j] : (g.scope p[j]).query ≠ [])
  have hyi : y ∉ (g.scope p[i]).query := by
    rcases Nat.lt_or_gt_of_ne hij with h | h
    · exact hdis j i hj hi h y hy
    · intro h'; exact hdis i j hi hj h y h' hy
  have hsub : (y :: (g.scope p[i]).query) ⊆ (g.scope r).query := by
    intro x hx
    rcases List.mem_cons.mp hx with h | h
    · subst h; exact (hcov x).mpr ⟨p[j], List.getElem_mem _, hy⟩
    · exact (hcov x).mpr ⟨p[i], List.getElem_mem _, h⟩
  have := (List.subperm_of_subset (List.nodup_cons.mpr ⟨hyi, hnd _⟩) hsub).length_le
  simp only [List.length_cons] at this
  omega

/-- Without that, cycles are accepted: a region may be its own partition, and then no order can put
children first. -/
theorem C05_self_partition_accepted :
    ∃ g', addPartition ⟨fun _ => ⟨[0, 1], []⟩, fun _ => []⟩ 0 [0] = .ok g' ∧ 0 ∈ g'.children 0 :=
  ⟨_, rfl, by decide⟩

end Verif.Graph

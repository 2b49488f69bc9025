import Verif.GraphProps
import Mathlib.Data.List.Count
import Mathlib.Data.Fintype.Basic
/-
C49: structure statistics.
-/
namespace Verif.Graph
variable {K : Type} [DecidableEq K]

/-! ### The counting loop -/

theorem statsLoop_spec (ch : K → List K) (U : Finset K) (hU : Closed ch U) :
    ∀ (n : Nat) (st : List K) (s : Stats K), (∀ x ∈ st, x ∈ U) → (∀ x ∈ s.visited, x ∈ U) → s.visited.Nodup →
      (∀ x ∈ s.visited, ∀ c ∈ ch x, c ∈ s.visited ∨ c ∈ st) →
      s.edges = (s.visited.map fun x => (ch x).length).sum →
      s.refs.Perm (s.visited.flatMap ch) →
      st.length + ∑ x ∈ U.filter (· ∉ s.visited), (ch x).length < n →
      ∃ r, statsLoop ch n st s = some r ∧ r.visited.Nodup ∧ (∀ x ∈ s.visited, x ∈ r.visited) ∧
        (∀ x ∈ st, x ∈ r.visited) ∧ (∀ x ∈ r.visited, ∀ c ∈ ch x, c ∈ r.visited) ∧
        (∀ x ∈ r.visited, x ∈ s.visited ∨ ∃ r ∈ st, Reach ch r x) ∧
        r.edges = (r.visited.map fun x => (ch x).length).sum ∧ r.refs.Perm (r.visited.flatMap ch) := by
  intro n
  induction n with
  | zero => intro st s _ _ _ _ _ _ h; omega
  | succ n ih =>
    intro st s hst hvis hnd hcl hed href hlt
    cases st with
    | nil =>
      exact ⟨s, rfl, hnd, fun x h => h, by simp, fun x hx c hc => (hcl x hx c hc).elim id (by simp),
        fun x h => .inl h, hed, href⟩
    | cons v st =>
      rw [statsLoop]
      rw [List.length_cons] at hlt
      by_cases hv : v ∈ s.visited
      · rw [if_pos hv]
        obtain ⟨r, h1, h2, h3, h4, h5, h6, h7⟩ := ih st s (fun x hx => hst x (by simp [hx])) hvis hnd
          (fun x hx c hc => by
            rcases hcl x hx c hc with h | h
            · exact .inl h
            · rcases List.mem_cons.mp h with h | h
              · exact .inl (h ▸ hv)
              · exact .inr h) hed href (by omega)
        refine ⟨r, h1, h2, h3, ?_, h5, ?_, h7⟩
        · intro x hx
          rcases List.mem_cons.mp hx with h | h
          · exact h ▸ h3 v hv
          · exact h4 x h
        · intro x hx
          rcases h6 x hx with h | ⟨r, hr, hrx⟩
          · exact .inl h
          · exact .inr ⟨r, by simp [hr], hrx⟩
      · rw [if_neg hv]
        dsimp only
        have hvU : v ∈ U := hst v (by simp)
        have hsum := sum_filter_erase U (fun x => (ch x).length) s.visited v hvU hv
        have hfl : ((ch v).filter (· ∉ v :: s.visited)).length ≤ (ch v).length := List.length_filter_le _ _
        obtain ⟨r, h1, h2, h3, h4, h5, h6, h7⟩ := ih (((ch v).filter (· ∉ v :: s.visited)).reverse ++ st)
          ⟨v :: s.visited, s.edges + (ch v).length, s.refs ++ ch v⟩
          (fun x hx => by
            rcases List.mem_append.mp hx with h | h
            · exact hU v hvU x (List.mem_of_mem_filter (List.mem_reverse.mp h))
            · exact hst x (by simp [h]))
          (fun x hx => by rcases List.mem_cons.mp hx with h | h; exacts [h ▸ hvU, hvis x h])
          (List.nodup_cons.mpr ⟨hv, hnd⟩)
          (fun x hx c hc => by
            rcases List.mem_cons.mp hx with h | h
            · subst h
              by_cases hcv : c ∈ x :: s.visited
              · exact .inl hcv
              · exact .inr (List.mem_append.mpr (.inl (List.mem_reverse.mpr
                  (List.mem_filter.mpr ⟨hc, by simpa using hcv⟩))))
            · rcases hcl x h c hc with h | h
              · exact .inl (by simp [h])
              · rcases List.mem_cons.mp h with h | h
                · exact .inl (by simp [h])
                · exact .inr (by simp [h]))
          (by dsimp only; rw [List.map_cons, List.sum_cons, hed]; omega)
          (by
            dsimp only
            rw [List.flatMap_cons]
            exact List.perm_append_comm.trans (href.append_left _))
          (by dsimp only; rw [List.length_append, List.length_reverse]; omega)
        refine ⟨r, h1, h2, fun x hx => h3 x (by simp [hx]), ?_, h5, ?_, h7⟩
        · intro x hx
          rcases List.mem_cons.mp hx with h | h
          · exact h ▸ h3 v (by simp)
          · exact h4 x (by simp [h])
        · intro x hx
          rcases h6 x hx with h | ⟨r, hr, hrx⟩
          · rcases List.mem_cons.mp h with h | h
            · exact .inr ⟨v, by simp, h ▸ Relation.ReflTransGen.refl⟩
            · exact .inl h
          · rcases List.mem_append.mp hr with h | h
            · exact .inr ⟨v, by simp, Relation.ReflTransGen.head
                (List.mem_of_mem_filter (List.mem_reverse.mp h)) hrx⟩
            · exact .inr ⟨r, by simp [h], hrx⟩

/-- **C49, counts.** For every finite module graph (sharing and cycles included) the loop terminates;
`num_nodes_total` is the number of distinct reachable nodes, `num_edges_total` the total number of
parent→child references of reachable nodes, every node's in-degree is its number of references, and
`num_shared_nodes` is the number of nodes referenced more than once. -/
theorem C49_counts (ch : K → List K) (U : Finset K) (hU : Closed ch U) (root : K) (hr : root ∈ U)
    (R : Finset K) (hR : ∀ x, x ∈ R ↔ Reach ch root x)
    (fuel : Nat) (hfuel : 1 + ∑ x ∈ U, (ch x).length < fuel) :
    ∃ s, statsLoop ch fuel [root] ⟨[], 0, []⟩ = some s ∧
      s.visited.length = R.card ∧ s.edges = ∑ x ∈ R, (ch x).length ∧
      (∀ k, s.refs.count k = ∑ x ∈ R, (ch x).count k) ∧
      numShared s = (U.filter fun k => 1 < ∑ x ∈ R, (ch x).count k).card := by
  obtain ⟨s, h1, h2, _, h4, h5, h6, h7, h8⟩ := statsLoop_spec ch U hU fuel [root] ⟨[], 0, []⟩
    (by simpa using hr) (by simp) (by simp) (by simp) (by simp) (by simp) (by simpa using hfuel)
  have hmem : ∀ x, x ∈ s.visited ↔ x ∈ R := by
    intro x
    rw [hR]
    constructor
    · intro hx
      rcases h6 x hx with h | ⟨r, hr', hrx⟩
      · simp at h
      · simp only [List.mem_singleton] at hr'
        subst hr'; exact hrx
    · intro hx
      exact reach_closed (S := (· ∈ s.visited)) h5 (h4 root (by simp)) hx
  have hfin : s.visited.toFinset = R := by
    ext x; simp [hmem]
  have hsum : ∀ f : K → Nat, (s.visited.map f).sum = ∑ x ∈ R, f x := by
    intro f
    rw [← hfin, List.sum_toFinset f h2]
  have hcount : ∀ k, s.refs.count k = ∑ x ∈ R, (ch x).count k := by
    intro k
    rw [h8.count_eq, List.count_flatMap, ← hsum]
    rfl
  have hUmem : ∀ x ∈ R, x ∈ U := fun x hx => reach_closed (S := (· ∈ U)) hU hr ((hR x).mp hx)
  refine ⟨s, h1, ?_, ?_, hcount, ?_⟩
  · rw [← hfin, List.toFinset_card_of_nodup h2]
  · rw [h7, hsum]
  · unfold numShared
    rw [← List.toFinset_card_of_nodup ((List.nodup_dedup _).filter _)]
    congr 1
    ext k
    simp only [List.mem_toFinset, List.mem_filter, List.mem_dedup, decide_eq_true_eq, Finset.mem_filter,
      hcount]
    constructor
    · rintro ⟨hk, hc⟩
      refine ⟨?_, hc⟩
      rw [h8.mem_iff, List.mem_flatMap] at hk
      obtain ⟨x, hx, hkx⟩ := hk
      exact hU x (hUmem x ((hmem x).mp hx)) k hkx
    · rintro ⟨_, hc⟩
      refine ⟨?_, hc⟩
      have : 0 < s.refs.count k := by rw [hcount]; omega
      exact List.count_pos_iff.mp this

/-! ### Depth -/

/-- A path of nodes starting at `v`. -/
def IsPath (ch : K → List K) (v : K) (l : List K) : Prop := (v :: l).IsChain (Edge ch)

/-- `d` is the number of nodes on a longest path starting at `v`. -/
def IsDepth (ch : K → List K) (v : K) (d : Nat) : Prop :=
  (∃ l, IsPath ch v l ∧ l.length + 1 = d) ∧ ∀ l, IsPath ch v l → l.length + 1 ≤ d

omit [DecidableEq K] in
theorem isDepth_leaf {ch : K → List K} {v : K} (h : ch v = []) : IsDepth ch v 1 := by
  refine ⟨⟨[], List.isChain_singleton _, rfl⟩, ?_⟩
  intro l hl
  cases l with
  | nil => simp
  | cons a l =>
    unfold IsPath at hl
    rw [List.isChain_cons_cons] at hl
    have : a ∈ ch v := hl.1
    rw [h] at this
    simp at this

/-- `best` is the largest depth among the nodes of `cs` (0 if there are none). -/
def IsMaxDepth (ch : K → List K) (cs : List K) (best : Nat) : Prop :=
  (cs = [] ∧ best = 0 ∨ ∃ c ∈ cs, IsDepth ch c best) ∧ ∀ c ∈ cs, ∃ d ≤ best, IsDepth ch c d

omit [DecidableEq K] in
theorem isDepth_node {ch : K → List K} {v : K} {best : Nat} (hne : ch v ≠ [])
    (h : IsMaxDepth ch (ch v) best) : IsDepth ch v (1 + best) := by
  obtain ⟨h1, h2⟩ := h
  rcases h1 with h1 | ⟨c, hc, ⟨l, hl, hll⟩, _⟩
  · exact absurd h1.1 hne
  · refine ⟨⟨c :: l, ?_, by simp; omega⟩, ?_⟩
    · unfold IsPath
      rw [List.isChain_cons_cons]
      exact ⟨hc, hl⟩
    · intro l' hl'
      cases l' with
      | nil => simp
      | cons a l' =>
        unfold IsPath at hl'
        rw [List.isChain_cons_cons] at hl'
        obtain ⟨d, hd, hdd⟩ := h2 a hl'.1
        have := hdd.2 l' hl'.2
        simp only [List.length_cons]
        omega

omit [DecidableEq K] in
theorem reach_of_trans {ch : K → List K} {a b : K} (h : Relation.TransGen (Edge ch) a b) : Reach ch a b :=
  h.to_reflTransGen

theorem depth_spec (ch : K → List K) (U : Finset K) (hU : Closed ch U) :
    ∀ (n : Nat) (v : K) (memo : List (K × Nat)) (visiting : List K), v ∈ U → (∀ x ∈ visiting, x ∈ U) →
      (∀ p ∈ memo, IsDepth ch p.1 p.2) → (∀ y ∈ visiting, Relation.TransGen (Edge ch) y v) →
      (U.filter (· ∉ visiting)).card < n →
      (∃ d memo', depth ch n v memo visiting = some (.ok (d, memo')) ∧ IsDepth ch v d ∧
        ∀ p ∈ memo', IsDepth ch p.1 p.2) ∨
      (depth ch n v memo visiting = some (.error .structureError) ∧ HasCycle ch v) := by
  intro n
  induction n with
  | zero => intro v memo visiting _ _ _ _ h; omega
  | succ n ih =>
    intro v memo visiting hv hvis hmemo hanc hcard
    rw [depth]
    cases hf : memo.find? (fun p => p.1 = v) with
    | some p =>
      left
      have hp := List.mem_of_find?_eq_some hf
      have hpv : p.1 = v := by simpa using List.find?_some hf
      exact ⟨p.2, memo, rfl, hpv ▸ hmemo p hp, hmemo⟩
    | none =>
      dsimp only
      by_cases hvv : v ∈ visiting
      · rw [if_pos hvv]
        exact .inr ⟨rfl, v, Relation.ReflTransGen.refl, hanc v hvv⟩
      · rw [if_neg hvv]
        have hcard' : (U.filter (· ∉ v :: visiting)).card < n := by
          have : (U.filter (· ∉ v :: visiting)).card < (U.filter (· ∉ visiting)).card := by
            apply Finset.card_lt_card
            constructor
            · intro x hx
              simp only [Finset.mem_filter, List.mem_cons, not_or] at hx ⊢
              exact ⟨hx.1, hx.2.2⟩
            · intro hsub
              have := hsub (Finset.mem_filter.mpr ⟨hv, hvv⟩)
              simp at this
          omega
        -- the fold
        have hfold : ∀ (cs : List K) (done : List K) (best : Nat) (memo : List (K × Nat)),
            (∀ c ∈ cs, c ∈ ch v) → (∀ p ∈ memo, IsDepth ch p.1 p.2) → IsMaxDepth ch done best →
            (∃ best' memo', cs.foldlM (depthStep fun x memo => depth ch n x memo (v :: visiting)) (.ok (best, memo))
                = some (.ok (best', memo')) ∧ IsMaxDepth ch (done ++ cs) best' ∧
                  ∀ p ∈ memo', IsDepth ch p.1 p.2) ∨
            (cs.foldlM (depthStep fun x memo => depth ch n x memo (v :: visiting)) (.ok (best, memo))
                = some (.error .structureError) ∧ HasCycle ch v) := by
          intro cs
          induction cs with
          | nil =>
            intro done best memo _ hm hmax
            exact .inl ⟨best, memo, rfl, by simpa using hmax, hm⟩
          | cons c cs ihc =>
            intro done best memo hcs hm hmax
            have hcv : c ∈ ch v := hcs c (by simp)
            have hstep := ih c memo (v :: visiting) (hU v hv c hcv)
              (fun x hx => by rcases List.mem_cons.mp hx with h | h; exacts [h ▸ hv, hvis x h]) hm
              (fun y hy => by
                rcases List.mem_cons.mp hy with h | h
                · subst h; exact Relation.TransGen.single hcv
                · exact (hanc y h).tail hcv) hcard'
            rcases hstep with ⟨d, memo1, hd, hdd, hm1⟩ | ⟨he, b, hb, hbb⟩
            · have hmax' : IsMaxDepth ch (done ++ [c]) (max best d) := by
                obtain ⟨m1, m2⟩ := hmax
                constructor
                · right
                  rcases le_total best d with h | h
                  · rw [max_eq_right h]; exact ⟨c, by simp, hdd⟩
                  · rw [max_eq_left h]
                    rcases m1 with ⟨_, m1⟩ | ⟨x, hx, hxd⟩
                    · have hd1 := hdd.2 [] (List.isChain_singleton _)
                      simp at hd1
                      omega
                    · exact ⟨x, by simp [hx], hxd⟩
                · intro x hx
                  rcases List.mem_append.mp hx with h | h
                  · obtain ⟨d', h1, h2⟩ := m2 x h
                    exact ⟨d', le_trans h1 (le_max_left _ _), h2⟩
                  · simp only [List.mem_singleton] at h
                    subst h
                    exact ⟨d, le_max_right _ _, hdd⟩
              have := ihc (done ++ [c]) (max best d) memo1 (fun x hx => hcs x (by simp [hx])) hm1 hmax'
              rw [List.append_assoc, List.singleton_append] at this
              rw [List.foldlM_cons]
              have hs : depthStep (fun x memo => depth ch n x memo (v :: visiting)) (.ok (best, memo)) c
                  = some (.ok (max best d, memo1)) := by simp only [depthStep, hd]
              rw [hs]
              exact this
            · right
              rw [List.foldlM_cons]
              have hs : depthStep (fun x memo => depth ch n x memo (v :: visiting)) (.ok (best, memo)) c
                  = some (.error .structureError) := by simp only [depthStep, he]
              rw [hs]
              refine ⟨?_, b, Relation.ReflTransGen.head hcv hb, hbb⟩
              have herr : ∀ cs : List K, cs.foldlM (depthStep fun x memo => depth ch n x memo (v :: visiting)) (.error .structureError)
                  = some (.error .structureError) := by
                intro cs
                induction cs with
                | nil => rfl
                | cons x xs ihx => rw [List.foldlM_cons]; exact ihx
              exact herr cs
        cases hch : ch v with
        | nil =>
          left
          refine ⟨1, _, rfl, isDepth_leaf hch, ?_⟩
          intro p hp
          rcases List.mem_cons.mp hp with h | h
          · subst h; exact isDepth_leaf hch
          · exact hmemo p h
        | cons c cs =>
          dsimp only
          have := hfold (c :: cs) [] 0 memo (by rw [hch]; exact fun c h => h) hmemo
            ⟨.inl ⟨rfl, rfl⟩, by simp⟩
          rcases this with ⟨best, memo', h1, h2, h3⟩ | ⟨h1, h2⟩
          · left
            rw [h1]
            have hdep : IsDepth ch v (1 + best) := isDepth_node (by rw [hch]; simp) (by
              rw [hch]; simpa using h2)
            refine ⟨1 + best, _, rfl, hdep, ?_⟩
            intro p hp
            rcases List.mem_cons.mp hp with h | h
            · subst h; exact hdep
            · exact h3 p h
          · right
            rw [h1]
            exact ⟨rfl, h2⟩

omit [DecidableEq K] in
theorem path_of_reach {ch : K → List K} {a b : K} (h : Reach ch a b) (n : Nat)
    (hb : ∃ l, IsPath ch b l ∧ n ≤ l.length) : ∃ l, IsPath ch a l ∧ n ≤ l.length := by
  induction h using Relation.ReflTransGen.head_induction_on with
  | refl => exact hb
  | @head a c h1 _ ih =>
    obtain ⟨l, hl, hn⟩ := ih
    refine ⟨c :: l, ?_, by simp; omega⟩
    unfold IsPath
    rw [List.isChain_cons_cons]
    exact ⟨h1, hl⟩

omit [DecidableEq K] in
theorem path_of_trans {ch : K → List K} {a b : K} (h : Relation.TransGen (Edge ch) a b) (n : Nat)
    (hb : ∃ l, IsPath ch b l ∧ n ≤ l.length) : ∃ l, IsPath ch a l ∧ n + 1 ≤ l.length := by
  obtain ⟨c, hc, hcb⟩ := Relation.TransGen.head'_iff.mp h
  obtain ⟨l, hl, hn⟩ := path_of_reach hcb n hb
  refine ⟨c :: l, ?_, by simp; omega⟩
  unfold IsPath
  rw [List.isChain_cons_cons]
  exact ⟨hc, hl⟩

/-- **C49, depth.** `max_depth` is computed for every finite module graph: it is the number of nodes on a
longest path from the root, and StructureError is raised exactly when a cycle is reachable. -/
theorem C49_max_depth (ch : K → List K) (U : Finset K) (hU : Closed ch U) (root : K) (hr : root ∈ U)
    (fuel : Nat) (hfuel : U.card < fuel) :
    (¬ HasCycle ch root → ∃ d, maxDepth ch fuel root = some (.ok d) ∧ IsDepth ch root d) ∧
    (HasCycle ch root → maxDepth ch fuel root = some (.error .structureError)) := by
  have hc : (U.filter (· ∉ ([] : List K))).card < fuel := by
    have : (U.filter (· ∉ ([] : List K))).card ≤ U.card := Finset.card_filter_le _ _
    omega
  have := depth_spec ch U hU fuel root [] [] hr (by simp) (by simp) (by simp) hc
  unfold maxDepth
  rcases this with ⟨d, memo', h1, h2, _⟩ | ⟨h1, h2⟩
  · rw [h1]
    refine ⟨fun _ => ⟨d, rfl, h2⟩, ?_⟩
    rintro ⟨b, hb, hbb⟩
    exfalso
    have hlong : ∀ n, ∃ l, IsPath ch b l ∧ n ≤ l.length := by
      intro n
      induction n with
      | zero => exact ⟨[], List.isChain_singleton _, by simp⟩
      | succ n ih => exact path_of_trans hbb n ih
    obtain ⟨l, hl, hn⟩ := path_of_reach hb d (hlong d)
    have := h2.2 l hl
    omega
  · rw [h1]
    exact ⟨fun h => absurd h2 h, fun _ => rfl⟩

/-- Non-vacuity: a diamond 0 → {1, 2}, 1 → {3, 3}, 2 → {3}; node 3 is referenced three times. -/
example :
    let ch : Nat → List Nat := fun k => if k = 0 then [1, 2] else if k = 1 then [3, 3] else if k = 2 then [3] else []
    ((statsLoop ch 20 [0] ⟨[], 0, []⟩).map fun s => (s.visited.length, s.edges, numShared s)) = some (4, 5, 1) ∧
    ((maxDepth ch 5 0).bind Except.toOption) = some 3 ∧
    (postOrder ch 5 0) = some [3, 1, 2, 0] := by decide

end Verif.Graph

import Verif.CLTree
import Verif.SamplingLemmas
import Mathlib.Algebra.BigOperators.Field
import Mathlib.Algebra.Order.BigOperators.Group.Finset
import Mathlib.Tactic.NormNum

/-! # Chow-Liu trees: C23, C24, C25, C56 -/

namespace Verif.CLTree

/-! ## C25: tree orders -/

/-- Node `i` is connected to a root by parent pointers. -/
inductive Reach (ps : List ℤ) : Fin ps.length → Prop
  | root {i} : ps[i] = -1 → Reach ps i
  | step {i p} : par ps i = some p → Reach ps p → Reach ps i

/-- Every node of `pre` comes after its parent. -/
def ParentsFirst {α : Type} (pa : α → Option α) (pre : List α) : Prop :=
  ∀ l₁ i l₂, pre = l₁ ++ i :: l₂ → ∀ p, pa i = some p → p ∈ l₁

/-- The same, recursively on the reversed list. -/
def PF {α : Type} (pa : α → Option α) : List α → Prop
  | [] => True
  | i :: l => (∀ p, pa i = some p → p ∈ l) ∧ PF pa l

theorem parentsFirst_iff {α : Type} (pa : α → Option α) (post : List α) :
    ParentsFirst pa post.reverse ↔ PF pa post := by
  induction post with
  | nil =>
    simp only [PF, iff_true]
    intro l₁ i l₂ h
    simp at h
  | cons a l ih =>
    rw [PF, ← ih]
    constructor
    · intro h
      refine ⟨fun p hp => ?_, ?_⟩
      · have := h l.reverse a [] (by simp) p hp
        simpa using this
      · intro l₁ i l₂ he p hp
        exact h l₁ i (l₂ ++ [a]) (by simp [he]) p hp
    · rintro ⟨h1, h2⟩ l₁ i l₂ he p hp
      rw [List.reverse_cons] at he
      rcases List.eq_nil_or_concat l₂ with rfl | ⟨l₂, b, rfl⟩
      · obtain ⟨h3, h4⟩ := List.append_inj' he rfl
        simp only [List.cons.injEq, and_true] at h4
        subst h4; subst h3
        simpa using h1 p hp
      · have he' : l.reverse ++ [a] = (l₁ ++ i :: l₂) ++ [b] := by simpa using he
        obtain ⟨h3, _⟩ := List.append_inj' he' rfl
        exact h2 l₁ i l₂ h3 p hp

theorem par_eq_some {ps : List ℤ} {i p : Fin ps.length} : par ps i = some p ↔ ps[i] = ((p : ℕ) : ℤ) := by
  unfold par
  constructor
  · intro h
    split at h
    · rename_i hc
      simp only [Option.some.injEq] at h
      have : (p : ℕ) = ps[i].toNat := by rw [← h]
      rw [this, Int.toNat_of_nonneg hc.1]
    · cases h
  · intro h
    have hp := p.2
    rw [dif_pos ⟨by omega, by omega⟩]
    congr 1
    apply Fin.ext
    simp [h]

theorem par_root {ps : List ℤ} {i : Fin ps.length} (h : ps[i] = -1) : par ps i = none := by
  unfold par
  rw [dif_neg]
  rintro ⟨h1, _⟩
  omega

theorem mem_children {ps : List ℤ} {i c : Fin ps.length} : c ∈ children ps i ↔ par ps c = some i := by
  simp [children]

/-- Loop invariant of the depth first search. -/
structure Inv (ps : List ℤ) (r : Fin ps.length) (st pre : List (Fin ps.length)) : Prop where
  nodup : (pre ++ st).Nodup
  origin : ∀ i ∈ pre ++ st, i = r ∨ ∃ p ∈ pre, par ps i = some p
  closed : ∀ i ∈ pre, ∀ c, par ps c = some i → c ∈ pre ++ st
  root : r ∈ pre ++ st
  first : PF (par ps) pre.reverse

theorem children_nodup (ps : List ℤ) (i : Fin ps.length) : (children ps i).Nodup :=
  (List.nodup_finRange _).filter _

theorem Inv.step {ps : List ℤ} {r node : Fin ps.length} {st pre : List (Fin ps.length)} (hr : ps[r] = -1)
    (h : Inv ps r (node :: st) pre) : Inv ps r (children ps node ++ st) (pre ++ [node]) := by
  have hnp : node ∉ pre := by
    have := h.nodup
    rw [List.nodup_append] at this
    intro hm
    exact this.2.2 node hm node (by simp) rfl
  have hfresh : ∀ c, par ps c = some node → c ∉ pre ++ node :: st := by
    intro c hc hm
    rcases h.origin c hm with rfl | ⟨p, hp, hpc⟩
    · rw [par_root hr] at hc; cases hc
    · rw [hc] at hpc
      cases hpc
      exact hnp hp
  have hmem : ∀ i, i ∈ pre ++ [node] ++ (children ps node ++ st) ↔ i ∈ pre ++ node :: st ∨ par ps i = some node := by
    intro i
    simp only [List.mem_append, List.mem_cons, mem_children, List.not_mem_nil, or_false]
    tauto
  constructor
  · have h1 : (pre ++ node :: st).Nodup := h.nodup
    have : (pre ++ [node] ++ (children ps node ++ st)).Perm (children ps node ++ (pre ++ node :: st)) := by
      have e : pre ++ [node] ++ (children ps node ++ st) = (pre ++ [node]) ++ (children ps node ++ st) := rfl
      rw [e]
      have e2 : children ps node ++ (pre ++ node :: st) = children ps node ++ ((pre ++ [node]) ++ st) := by simp
      rw [e2, ← List.append_assoc, ← List.append_assoc]
      exact List.Perm.append_right st List.perm_append_comm
    rw [this.nodup_iff, List.nodup_append]
    refine ⟨children_nodup ps node, h1, fun c hc d hd hcd => ?_⟩
    subst hcd
    exact hfresh c (mem_children.1 hc) hd
  · intro i hi
    rcases (hmem i).1 hi with hi | hi
    · rcases h.origin i hi with rfl | ⟨p, hp, hpi⟩
      · exact Or.inl rfl
      · exact Or.inr ⟨p, by simp [hp], hpi⟩
    · exact Or.inr ⟨node, by simp, hi⟩
  · intro i hi c hc
    rw [hmem]
    rcases List.mem_append.1 hi with hi | hi
    · exact Or.inl (h.closed i hi c hc)
    · rw [List.mem_singleton] at hi
      subst hi
      exact Or.inr hc
  · rw [hmem]; exact Or.inl h.root
  · rw [List.reverse_append]
    refine ⟨fun p hp => ?_, h.first⟩
    rcases h.origin node (by simp) with rfl | ⟨q, hq, hqp⟩
    · rw [par_root hr] at hp; cases hp
    · rw [hqp] at hp; cases hp
      simpa using hq

theorem Inv.length_le {ps : List ℤ} {r : Fin ps.length} {st pre} (h : Inv ps r st pre) :
    pre.length + st.length ≤ ps.length := by
  have := List.Nodup.length_le_card h.nodup
  simpa using this

/-- The loop ends within one iteration per node. -/
theorem dfs_ok {ps : List ℤ} {r : Fin ps.length} (hr : ps[r] = -1) :
    ∀ n st pre, Inv ps r st pre → ps.length - pre.length ≤ n →
      ∃ pre', dfs (children ps) n st pre = some pre' ∧ Inv ps r [] pre' := by
  intro n
  induction n with
  | zero =>
    intro st pre h hn
    have := h.length_le
    cases st with
    | nil => exact ⟨pre, rfl, h⟩
    | cons a st => simp only [List.length_cons] at this; omega
  | succ n ih =>
    intro st pre h hn
    cases st with
    | nil => exact ⟨pre, rfl, h⟩
    | cons a st =>
      exact ih _ _ (h.step hr) (by simp only [List.length_append, List.length_singleton]; omega)

theorem inv0 {ps : List ℤ} {r : Fin ps.length} : Inv ps r [r] [] := by
  constructor
  · simp
  · intro i hi; left; simpa using hi
  · simp
  · simp
  · simp [PF]

/-- What acceptance means: one root, every other parent in range. -/
def OneRootInRange (ps : List ℤ) : Prop :=
  (∃! i : Fin ps.length, ps[i] = -1) ∧ ∀ i : Fin ps.length, ps[i] = -1 ∨ 0 ≤ ps[i] ∧ ps[i] < ps.length

theorem roots_eq_singleton_iff {ps : List ℤ} {r : Fin ps.length} :
    roots ps = [r] ↔ ps[r] = -1 ∧ ∀ j : Fin ps.length, ps[j] = -1 → j = r := by
  have hnd : (roots ps).Nodup := (List.nodup_finRange _).filter _
  have hm : ∀ i, i ∈ roots ps ↔ ps[i] = -1 := by intro i; simp [roots]
  constructor
  · intro h
    refine ⟨(hm r).1 (by simp [h]), fun j hj => ?_⟩
    have := (hm j).2 hj
    rw [h] at this
    simpa using this
  · rintro ⟨h1, h2⟩
    rw [← List.perm_singleton, List.perm_ext_iff_of_nodup hnd (by simp)]
    intro j
    rw [hm]
    constructor
    · intro hj; simpa using h2 j hj
    · intro hj; simp only [List.mem_singleton] at hj; rw [hj]; exact h1

theorem orders_spec {ps : List ℤ} (hne : ps ≠ []) :
    (∃ pre post, computeOrders ps = .ok (pre, post)) ↔ OneRootInRange ps := by
  have hl : ps.length ≠ 0 := by simpa using hne
  have hany : ((List.finRange ps.length).any fun c => decide (ps[c] ≠ -1 ∧ (ps[c] < 0 ∨ (ps.length : ℤ) ≤ ps[c]))) = true
      ↔ ¬ ∀ i : Fin ps.length, ps[i] = -1 ∨ 0 ≤ ps[i] ∧ ps[i] < ps.length := by
    rw [List.any_eq_true]
    constructor
    · rintro ⟨c, _, hc⟩ hall
      have hc := of_decide_eq_true hc
      have := hall c
      omega
    · intro h
      push Not at h
      obtain ⟨i, h1, h2⟩ := h
      refine ⟨i, List.mem_finRange i, decide_eq_true ⟨h1, ?_⟩⟩
      by_contra hcon
      push Not at hcon
      have := h2 hcon.1
      omega
  unfold computeOrders
  rw [if_neg hl]
  constructor
  · rintro ⟨pre, post, h⟩
    split at h
    · rename_i r hr
      obtain ⟨h1, h2⟩ := roots_eq_singleton_iff.1 hr
      split at h
      · cases h
      · rename_i hn
        refine ⟨⟨r, h1, fun j hj => h2 j hj⟩, ?_⟩
        by_contra hcon
        exact hn (hany.2 hcon)
    · cases h
  · rintro ⟨⟨r, hr, huniq⟩, hrange⟩
    have hroots : roots ps = [r] := roots_eq_singleton_iff.2 ⟨hr, fun j hj => huniq j hj⟩
    rw [hroots]
    simp only
    rw [if_neg (fun hcon => hany.1 hcon hrange)]
    obtain ⟨pre', he, _⟩ := dfs_ok hr (ps.length + 1) [r] [] inv0 (by simp)
    rw [he]
    exact ⟨_, _, rfl⟩

theorem orders_facts {ps : List ℤ} {pre post : List (Fin ps.length)} (hne : ps ≠ [])
    (h : computeOrders ps = .ok (pre, post)) : ∃ r, roots ps = [r] ∧ post = pre.reverse ∧ Inv ps r [] pre := by
  have hl : ps.length ≠ 0 := by simpa using hne
  unfold computeOrders at h
  rw [if_neg hl] at h
  split at h
  · rename_i r hr
    refine ⟨r, hr, ?_⟩
    have hroot := (roots_eq_singleton_iff.1 hr).1
    split at h
    · cases h
    · obtain ⟨pre', he, hinv⟩ := dfs_ok hroot (ps.length + 1) [r] [] inv0 (by simp)
      rw [he] at h
      simp only [Except.ok.injEq, Prod.mk.injEq] at h
      obtain ⟨rfl, rfl⟩ := h
      exact ⟨rfl, hinv⟩
  · cases h

/-- C25: a parents vector is accepted exactly when it has one root and all other parents are in range; in particular
the traversal always terminates (no other error occurs). -/
theorem C25_accepts_iff {ps : List ℤ} (hne : ps ≠ []) :
    (∃ pre post, computeOrders ps = .ok (pre, post)) ↔ OneRootInRange ps := orders_spec hne

/-- C25: rejection is always InvalidParameterError. -/
theorem C25_rejects {ps : List ℤ} {e : Exc} (h : computeOrders ps = .error e) : e = .invalidParameter := by
  unfold computeOrders at h
  split at h
  · cases h
  · split at h
    · rename_i r hr
      have hroot := (roots_eq_singleton_iff.1 hr).1
      split at h
      · exact (Except.error.inj h).symm
      · obtain ⟨pre', he, hinv⟩ := dfs_ok hroot (ps.length + 1) [r] [] inv0 (by simp)
        rw [he] at h
        cases h
    · exact (Except.error.inj h).symm

theorem mem_of_reach {ps : List ℤ} {r : Fin ps.length} {pre} (hr : roots ps = [r]) (h : Inv ps r [] pre) {i}
    (hi : Reach ps i) : i ∈ pre := by
  induction hi with
  | root hi =>
    rw [(roots_eq_singleton_iff.1 hr).2 _ hi]
    simpa using h.root
  | step hp _ ih => simpa using h.closed _ ih _ hp

theorem reach_of_pf {ps : List ℤ} {r : Fin ps.length} (hroot : ps[r] = -1) {post : List (Fin ps.length)}
    (hpf : PF (par ps) post) (ho : ∀ i ∈ post, i = r ∨ ∃ p, par ps i = some p) : ∀ i ∈ post, Reach ps i := by
  induction post with
  | nil => simp
  | cons a l ih =>
    have ih := ih hpf.2 fun i hi => ho i (by simp [hi])
    intro i hi
    rcases List.mem_cons.1 hi with rfl | hi
    · rcases ho i (by simp) with rfl | ⟨p, hp⟩
      · exact .root hroot
      · exact .step hp (ih p (hpf.1 p hp))
    · exact ih i hi

/-- C25: the pre-order lists every node connected to the root exactly once, parents first, and nothing else; the
post-order is its reverse. -/
theorem C25_orders {ps : List ℤ} (hne : ps ≠ []) {pre post : List (Fin ps.length)}
    (h : computeOrders ps = .ok (pre, post)) :
    pre.Nodup ∧ (∀ i, i ∈ pre ↔ Reach ps i) ∧ ParentsFirst (par ps) pre ∧ post = pre.reverse := by
  obtain ⟨r, hr, hpost, hinv⟩ := orders_facts hne h
  have hroot := (roots_eq_singleton_iff.1 hr).1
  refine ⟨by simpa using hinv.nodup, fun i => ⟨fun hi => ?_, mem_of_reach hr hinv⟩, ?_, hpost⟩
  · refine reach_of_pf hroot hinv.first (fun j hj => ?_) i (by simpa using hi)
    rcases hinv.origin j (by simpa using hj) with hj | ⟨p, _, hp⟩
    · exact Or.inl hj
    · exact Or.inr ⟨p, hp⟩
  · have := (parentsFirst_iff (par ps) pre.reverse).2 hinv.first
    simpa using this

/-- A rooted tree: accepted, and every node is connected to the root. -/
def IsTree (ps : List ℤ) : Prop := OneRootInRange ps ∧ ∀ i, Reach ps i

/-- C25: a rooted tree is accepted and every node is listed exactly once, parents first. -/
theorem C25_tree {ps : List ℤ} (hne : ps ≠ []) (ht : IsTree ps) :
    ∃ pre, computeOrders ps = .ok (pre, pre.reverse) ∧ pre.Perm (List.finRange ps.length) ∧
      ParentsFirst (par ps) pre := by
  obtain ⟨pre, post, h⟩ := (C25_accepts_iff hne).2 ht.1
  obtain ⟨h1, h2, h3, h4⟩ := C25_orders hne h
  refine ⟨pre, by rw [h, h4], ?_, h3⟩
  rw [List.perm_ext_iff_of_nodup h1 (List.nodup_finRange _)]
  intro i
  simp [h2, ht.2 i]

/-- C25 is FALSE as stated: a cycle next to the root is accepted by the constructor and by the structure check. -/
theorem C25_cycle_accepted : (∃ pre post, computeOrders [-1, 2, 1] = .ok (pre, post)) ∧
    hasStructure [-1, 2, 1] = true ∧ ¬ IsTree [-1, 2, 1] := by
  refine ⟨⟨[0], [0], by rfl⟩, by rfl, ?_⟩
  rintro ⟨_, h⟩
  have key : ∀ i : Fin ([-1, 2, 1] : List ℤ).length, Reach [-1, 2, 1] i → i = 0 := by
    intro i hi
    induction hi with
    | @root i hi =>
      fin_cases i
      · rfl
      · simp at hi
      · simp at hi
    | @step i p hp _ ih =>
      subst ih
      have := par_eq_some.1 hp
      fin_cases i <;> simp at this
  have := key 1 (h 1)
  simp at this

/-- A tree that meets the hypotheses: 1 is the root, 0 and 3 its children, 2 a child of 3. -/
example : computeOrders [1, -1, 3, 1] = .ok ([1, 0, 3, 2], [2, 3, 0, 1]) := by rfl

/-! ## Chains -/

section
variable {F : ℕ} {pa : Fin F → Option (Fin F)} {cpt : Fin F → ℕ → ℕ → LogV} {K : ℕ} {obs : Fin F → Option ℕ}

/-- A children-first list that ends in the root `r`. -/
structure Chain (pa : Fin F → Option (Fin F)) (r : Fin F) (L : List (Fin F)) : Prop where
  pf : PF pa L
  nodup : L.Nodup
  mem : r ∈ L
  root : pa r = none
  only : ∀ i ∈ L, pa i = none → i = r

theorem pf_has_root {l : List (Fin F)} (h : PF pa l) (hl : l ≠ []) : ∃ j ∈ l, pa j = none := by
  induction l with
  | nil => exact absurd rfl hl
  | cons a l ih =>
    rcases hp : pa a with _ | p
    · exact ⟨a, by simp, hp⟩
    · have hm := h.1 p hp
      obtain ⟨j, hj, hj'⟩ := ih h.2 (List.ne_nil_of_mem hm)
      exact ⟨j, by simp [hj], hj'⟩

theorem chain_induct {r : Fin F} {motive : List (Fin F) → Prop} (base : pa r = none → motive [r])
    (step : ∀ i l p, pa i = some p → p ∈ l → i ∉ l → i ≠ r → Chain pa r l → motive l → motive (i :: l)) :
    ∀ L, Chain pa r L → motive L := by
  intro L
  induction L with
  | nil => intro h; simpa using h.mem
  | cons i l ih =>
    intro h
    have hnd := List.nodup_cons.1 h.nodup
    rcases hp : pa i with _ | p
    · have hir := h.only i (by simp) hp
      by_cases hl : l = []
      · subst hl; subst hir; exact base hp
      · obtain ⟨j, hj, hj'⟩ := pf_has_root h.pf.2 hl
        have := h.only j (by simp [hj]) hj'
        rw [this, ← hir] at hj
        exact absurd hj hnd.1
    · have hir : i ≠ r := by
        rintro rfl
        rw [h.root] at hp; cases hp
      have hc : Chain pa r l :=
        ⟨h.pf.2, hnd.2, (List.mem_cons.1 h.mem).resolve_left (Ne.symm hir), h.root,
          fun j hj => h.only j (by simp [hj])⟩
      exact step i l p hp (h.pf.1 p hp) hnd.1 hir hc (ih hc)

/-- Values of node `i` compatible with the evidence. -/
def vals (K : ℕ) (obs : Fin F → Option ℕ) (i : Fin F) : Finset ℕ :=
  match obs i with | some v => {v} | none => Finset.range K

/-- Assignments to the nodes of `L` compatible with the evidence (0 elsewhere). -/
def Dom (K : ℕ) (obs : Fin F → Option ℕ) (L : List (Fin F)) : Finset (Fin F → ℕ) :=
  Fintype.piFinset fun i => if i ∈ L then vals K obs i else {0}

/-- Value of the parent, 0 for the root. -/
def pval (pa : Fin F → Option (Fin F)) (x : Fin F → ℕ) (i : Fin F) : ℕ :=
  match pa i with | none => 0 | some p => x p

theorem sum_dom_cons {M : Type*} [AddCommMonoid M] {i : Fin F} {l : List (Fin F)} (hi : i ∉ l) (g : (Fin F → ℕ) → M) :
    ∑ x ∈ Dom K obs (i :: l), g x = ∑ x ∈ Dom K obs l, ∑ v ∈ vals K obs i, g (Function.update x i v) := by
  rw [← Finset.sum_product']
  symm
  refine Finset.sum_nbij' (fun q => Function.update q.1 i q.2) (fun x => (Function.update x i 0, x i)) ?_ ?_ ?_ ?_ ?_
  · rintro ⟨x, v⟩ h
    rw [Finset.mem_product] at h
    simp only [Dom, Fintype.mem_piFinset] at h ⊢
    intro j
    by_cases hj : j = i
    · subst hj; simpa using h.2
    · have := h.1 j
      simpa [hj] using this
  · intro x h
    simp only [Dom, Fintype.mem_piFinset, Finset.mem_product] at h ⊢
    refine ⟨fun j => ?_, by simpa using h i⟩
    by_cases hj : j = i
    · subst hj; simp [hi]
    · have := h j
      simpa [hj] using this
  · rintro ⟨x, v⟩ h
    rw [Finset.mem_product] at h
    simp only [Dom, Fintype.mem_piFinset] at h
    have hx : x i = 0 := by simpa [hi] using h.1 i
    simp only [Function.update_idem, Function.update_self, Prod.mk.injEq, and_true]
    rw [← hx, Function.update_eq_self]
  · intro x h
    simp
  · rintro ⟨x, v⟩ h
    rfl

theorem dom_nil : Dom K obs ([] : List (Fin F)) = {fun _ => 0} := by
  ext x
  simp [Dom, funext_iff]

/-- Weight of node `j` under assignment `x` and messages `cs`. -/
noncomputable def wt (pa : Fin F → Option (Fin F)) (cpt : Fin F → ℕ → ℕ → LogV) (cs : Fin F → ℕ → LogV)
    (x : Fin F → ℕ) (j : Fin F) : LogV := cpt j (x j) (pval pa x j) + cs j (x j)

/-- Log-score of the nodes in `L`. -/
noncomputable def obj (pa : Fin F → Option (Fin F)) (cpt : Fin F → ℕ → ℕ → LogV) (L : List (Fin F))
    (cs : Fin F → ℕ → LogV) (x : Fin F → ℕ) : LogV := ∑ j ∈ L.toFinset, wt pa cpt cs x j

theorem obj_congr {L : List (Fin F)} (hpf : PF pa L) {cs : Fin F → ℕ → LogV} {x y : Fin F → ℕ}
    (h : ∀ j ∈ L, x j = y j) : obj pa cpt L cs x = obj pa cpt L cs y := by
  have hpar : ∀ L : List (Fin F), PF pa L → ∀ j ∈ L, ∀ p, pa j = some p → p ∈ L := by
    intro L
    induction L with
    | nil => simp
    | cons a l ih =>
      intro h j hj p hp
      rcases List.mem_cons.1 hj with rfl | hj
      · exact List.mem_cons_of_mem _ (h.1 p hp)
      · exact List.mem_cons_of_mem _ (ih h.2 j hj p hp)
  refine Finset.sum_congr rfl fun j hj => ?_
  rw [List.mem_toFinset] at hj
  have : pval pa x j = pval pa y j := by
    unfold pval
    rcases hp : pa j with _ | p
    · rfl
    · exact h p (hpar L hpf j hj p hp)
  rw [wt, wt, h j hj, this]

theorem obj_cons {i : Fin F} {l : List (Fin F)} (hi : i ∉ l) (cs : Fin F → ℕ → LogV) (x : Fin F → ℕ) :
    obj pa cpt (i :: l) cs x = wt pa cpt cs x i + obj pa cpt l cs x := by
  unfold obj
  rw [List.toFinset_cons, Finset.sum_insert (by simpa using hi)]

theorem obj_update_cs {l : List (Fin F)} {p : Fin F} (hp : p ∈ l) (cs : Fin F → ℕ → LogV) (m : ℕ → LogV)
    (x : Fin F → ℕ) :
    obj pa cpt l (Function.update cs p fun y => cs p y + m y) x = m (x p) + obj pa cpt l cs x := by
  unfold obj
  have : ∀ j ∈ l.toFinset, wt pa cpt (Function.update cs p fun y => cs p y + m y) x j =
      wt pa cpt cs x j + if j = p then m (x p) else 0 := by
    intro j _
    unfold wt
    by_cases hj : j = p
    · subst hj; simp [add_assoc]
    · simp [hj]
  rw [Finset.sum_congr rfl this, Finset.sum_add_distrib, Finset.sum_ite_eq', if_pos (by simpa using hp), add_comm]

/-- The message node `i` sends for parent value `y`. -/
def msg (cpt : Fin F → ℕ → ℕ → LogV) (pick : (ℕ → LogV) → ℕ × LogV) (obs : Fin F → Option ℕ)
    (cs : Fin F → ℕ → LogV) (i : Fin F) (y : ℕ) : LogV :=
  match obs i with
  | some v => cpt i v y + cs i v
  | none => (pick fun v => cpt i v y + cs i v).2

theorem upStep_cs {pick : (ℕ → LogV) → ℕ × LogV} {s : Up F} {i p : Fin F} (hp : pa i = some p) :
    (upStep pa cpt pick obs s i).cs = Function.update s.cs p fun y => s.cs p y + msg cpt pick obs s.cs i y := by
  unfold upStep msg
  rw [hp]
  rcases obs i with _ | v <;> rfl

theorem upStep_bp {pick : (ℕ → LogV) → ℕ × LogV} {s : Up F} {i p : Fin F} (hp : pa i = some p) (ho : obs i = none) :
    (upStep pa cpt pick obs s i).bp i = fun y => (pick fun v => cpt i v y + s.cs i v).1 := by
  unfold upStep
  rw [hp, ho]
  simp

theorem upStep_bp_ne {pick : (ℕ → LogV) → ℕ × LogV} {s : Up F} {i j : Fin F} (h : j ≠ i) :
    (upStep pa cpt pick obs s i).bp j = s.bp j := by
  unfold upStep
  rcases pa i with _ | p
  · rfl
  · rcases obs i with _ | v <;> simp [h]

/-- Nodes outside the rest of the list are final. -/
theorem up_final {pick : (ℕ → LogV) → ℕ × LogV} {l : List (Fin F)} (hpf : PF pa l) {i : Fin F} (hi : i ∉ l) (s : Up F) :
    (l.foldl (upStep pa cpt pick obs) s).cs i = s.cs i ∧ (l.foldl (upStep pa cpt pick obs) s).bp i = s.bp i := by
  induction l generalizing s with
  | nil => exact ⟨rfl, rfl⟩
  | cons a l ih =>
    rw [List.mem_cons, not_or] at hi
    rw [List.foldl_cons]
    obtain ⟨h1, h2⟩ := ih hpf.2 hi.2 (upStep pa cpt pick obs s a)
    rw [h1, h2, upStep_bp_ne hi.1]
    refine ⟨?_, rfl⟩
    rcases hp : pa a with _ | p
    · unfold upStep; rw [hp]
    · rw [upStep_cs hp, Function.update_of_ne]
      rintro rfl
      exact hi.2 (hpf.1 _ hp)

/-! ## C23: the likelihood -/

/-- Total weight of the compatible assignments of `L`. -/
noncomputable def Z (pa : Fin F → Option (Fin F)) (cpt : Fin F → ℕ → ℕ → LogV) (K : ℕ) (obs : Fin F → Option ℕ)
    (L : List (Fin F)) (cs : Fin F → ℕ → LogV) : ℝ := ∑ x ∈ Dom K obs L, expL (obj pa cpt L cs x)

theorem expL_msg (cs : Fin F → ℕ → LogV) (i : Fin F) (y : ℕ) :
    expL (msg cpt (pickSum K) obs cs i y) = ∑ v ∈ vals K obs i, expL (cpt i v y + cs i v) := by
  unfold msg vals
  rcases obs i with _ | v
  · simp [pickSum, expL_lse]
  · simp

theorem obj_cons_update {i p : Fin F} {l : List (Fin F)} (hp : pa i = some p) (hpl : p ∈ l) (hi : i ∉ l)
    (hpf : PF pa l) (cs : Fin F → ℕ → LogV) (x : Fin F → ℕ) (v : ℕ) :
    obj pa cpt (i :: l) cs (Function.update x i v) = (cpt i v (x p) + cs i v) + obj pa cpt l cs x := by
  rw [obj_cons hi]
  congr 1
  · have hne : p ≠ i := by rintro rfl; exact hi hpl
    simp [wt, pval, hp, hne]
  · refine obj_congr hpf fun j hj => ?_
    have : j ≠ i := by rintro rfl; exact hi hj
    simp [this]

theorem Z_cons {i p : Fin F} {l : List (Fin F)} (hp : pa i = some p) (hpl : p ∈ l) (hi : i ∉ l) (hpf : PF pa l)
    (s : Up F) :
    Z pa cpt K obs (i :: l) s.cs = Z pa cpt K obs l (upStep pa cpt (pickSum K) obs s i).cs := by
  unfold Z
  rw [sum_dom_cons hi, upStep_cs hp]
  refine Finset.sum_congr rfl fun x _ => ?_
  rw [obj_update_cs hpl, expL_add, expL_msg, Finset.sum_mul]
  refine Finset.sum_congr rfl fun v _ => ?_
  rw [obj_cons_update hp hpl hi hpf, expL_add]

/-- Reduction at the root, cltree.py:389-394. -/
noncomputable def finish (cpt : Fin F → ℕ → ℕ → LogV) (K : ℕ) (obs : Fin F → Option ℕ) (r : Fin F) (s : Up F) : LogV :=
  match obs r with
  | some x => rootScore cpt s r x
  | none => lse K (rootScore cpt s r)

theorem expL_finish (r : Fin F) (s : Up F) :
    expL (finish cpt K obs r s) = ∑ v ∈ vals K obs r, expL (rootScore cpt s r v) := by
  unfold finish vals
  rcases obs r with _ | v
  · simp [expL_lse]
  · simp

theorem Z_root {r : Fin F} (hr : pa r = none) (s : Up F) : Z pa cpt K obs [r] s.cs = expL (finish cpt K obs r s) := by
  unfold Z
  rw [sum_dom_cons (by simp), dom_nil, Finset.sum_singleton, expL_finish]
  refine Finset.sum_congr rfl fun v _ => ?_
  simp [obj, wt, pval, hr, rootScore]

theorem finish_eq {r : Fin F} {L : List (Fin F)} (h : Chain pa r L) :
    ∀ s : Up F, expL (finish cpt K obs r (L.foldl (upStep pa cpt (pickSum K) obs) s)) = Z pa cpt K obs L s.cs := by
  refine chain_induct (motive := fun L => ∀ s : Up F, expL (finish cpt K obs r (L.foldl (upStep pa cpt (pickSum K) obs) s)) =
    Z pa cpt K obs L s.cs) ?_ ?_ L h
  · intro hr s
    rw [Z_root hr, List.foldl_cons, List.foldl_nil]
    unfold upStep
    rw [hr]
  · intro i l p hp hpl hi _ hc ih s
    rw [List.foldl_cons, ih, Z_cons hp hpl hi hc.pf]

end

/-! ### Specification -/

/-- All complete rows over `{0, .., K-1}` that agree with the observed entries. -/
def completions {F : ℕ} (K : ℕ) (obs : Fin F → Option ℕ) : Finset (Fin F → ℕ) :=
  (Fintype.piFinset fun _ => Finset.range K).filter fun x => ∀ i v, obs i = some v → x i = v

/-- `P(x_root) * prod_i P(x_i | x_parent(i))`; the root's table is read in column 0. -/
noncomputable def joint (ps : List ℤ) (cpt : Fin ps.length → ℕ → ℕ → LogV) (x : Fin ps.length → ℕ) : ℝ :=
  ∏ i, expL (cpt i (x i) (pval (par ps) x i))

/-- A data row of integers below `K`, some of them missing. -/
def RowOk {F : ℕ} (K : ℕ) (obs : Fin F → Option ℕ) : Prop := ∀ i v, obs i = some v → v < K

/-- The row as it is stored in the data tensor. -/
def toData {F : ℕ} (obs : Fin F → Option ℕ) : Fin F → Option ℝ := fun i => (obs i).map fun v => (v : ℝ)

theorem dom_full {F K : ℕ} {obs : Fin F → Option ℕ} (hobs : RowOk K obs) {L : List (Fin F)} (hL : ∀ i, i ∈ L) :
    Dom K obs L = completions K obs := by
  ext x
  simp only [Dom, hL, if_true, Fintype.mem_piFinset, completions, Finset.mem_filter, Finset.mem_range]
  constructor
  · intro h
    refine ⟨fun i => ?_, fun i v hv => ?_⟩
    · have := h i
      unfold vals at this
      rcases ho : obs i with _ | v
      · rw [ho] at this; simpa using this
      · rw [ho] at this
        simp only [Finset.mem_singleton] at this
        rw [this]; exact hobs i v ho
    · have := h i
      unfold vals at this
      rw [hv] at this
      simpa using this
  · rintro ⟨h1, h2⟩ i
    unfold vals
    rcases ho : obs i with _ | v
    · simpa using h1 i
    · simpa using h2 i v ho

theorem expL_obj_full {ps : List ℤ} {cpt : Fin ps.length → ℕ → ℕ → LogV} {L : List (Fin ps.length)} (hL : ∀ i, i ∈ L)
    (x : Fin ps.length → ℕ) : expL (obj (par ps) cpt L (fun _ _ => 0) x) = joint ps cpt x := by
  have : L.toFinset = Finset.univ := by ext i; simp [hL]
  unfold obj joint
  rw [this, expL_sum]
  refine Finset.prod_congr rfl fun i _ => ?_
  simp only [wt, add_zero]

theorem tree_chain {ps : List ℤ} (hne : ps ≠ []) (ht : IsTree ps) :
    ∃ r post, roots ps = [r] ∧ computeOrders ps = .ok (post.reverse, post) ∧ Chain (par ps) r post ∧ ∀ i, i ∈ post := by
  obtain ⟨pre, h, hperm, hpf⟩ := C25_tree hne ht
  obtain ⟨r, hr, _, hinv⟩ := orders_facts hne h
  have hmem : ∀ i, i ∈ pre.reverse := fun i => by simp [hperm.mem_iff]
  have hroot := roots_eq_singleton_iff.1 hr
  refine ⟨r, pre.reverse, hr, by simpa using h, ⟨hinv.first, ?_, hmem r, par_root hroot.1, ?_⟩, hmem⟩
  · rw [List.nodup_reverse]; simpa using hinv.nodup
  · intro i _ hi
    rcases ht.1.2 i with h1 | h1
    · exact hroot.2 i h1
    · exfalso
      have : par ps i = some ⟨ps[i].toNat, by omega⟩ := par_eq_some.2 (by show ps[i] = ((ps[i].toNat : ℕ) : ℤ); omega)
      rw [hi] at this; cases this

theorem reach_not_self {ps : List ℤ} {i : Fin ps.length} (h : Reach ps i) : par ps i ≠ some i := by
  induction h with
  | root hi => rw [par_root hi]; simp
  | @step i p hp _ ih =>
    intro h
    rw [hp] at h
    cases h
    exact ih hp

theorem tree_hasStructure {ps : List ℤ} (ht : IsTree ps) : hasStructure ps = true := by
  obtain ⟨⟨⟨r, hr, hu⟩, hrange⟩, hreach⟩ := ht
  unfold hasStructure
  rw [roots_eq_singleton_iff.2 ⟨hr, fun j hj => hu j hj⟩]
  simp only [List.length_singleton, beq_self_eq_true, Bool.true_and, List.all_eq_true, decide_eq_true_eq]
  intro i _
  rcases hrange i with h | h
  · exact Or.inl h
  · right
    have := reach_not_self (hreach i)
    rw [Ne, par_eq_some] at this
    omega

theorem roundObs_toData {F : ℕ} (obs : Fin F → Option ℕ) : roundObs (toData obs) = obs := by
  funext i
  unfold roundObs toData
  rcases obs i with _ | v
  · rfl
  · simp

theorem validEntry_toData {F K : ℕ} {obs : Fin F → Option ℕ} (h : RowOk K obs) (i : Fin F) :
    validEntry K (toData obs i) := by
  unfold toData
  rcases ho : obs i with _ | v
  · trivial
  · refine ⟨?_, ?_, ?_⟩
    · simp
      positivity
    · simp
    · show ((v : ℕ) : ℝ) < K
      exact_mod_cast h i v ho

theorem joint_nonneg (ps : List ℤ) (cpt : Fin ps.length → ℕ → ℕ → LogV) (x) : 0 ≤ joint ps cpt x :=
  Finset.prod_nonneg fun _ _ => expL_nonneg _

/-- C23: belief propagation computes the sum of the joint over all completions of the row. -/
theorem C23_bp_exact {ps : List ℤ} (hne : ps ≠ []) (ht : IsTree ps) {pre post : List (Fin ps.length)}
    {root : Fin ps.length} (ho : computeOrders ps = .ok (pre, post)) (hr : roots ps = [root]) {K : ℕ}
    {obs : Fin ps.length → Option ℕ} (hobs : RowOk K obs) (cpt : Fin ps.length → ℕ → ℕ → LogV) :
    expL (bpRow (par ps) cpt K post root obs) = ∑ x ∈ completions K obs, joint ps cpt x := by
  obtain ⟨r, post', hr', ho', hc, hmem⟩ := tree_chain hne ht
  rw [ho] at ho'
  simp only [Except.ok.injEq, Prod.mk.injEq] at ho'
  obtain ⟨_, rfl⟩ := ho'
  rw [hr] at hr'
  simp only [List.cons.injEq, and_true] at hr'
  subst hr'
  have := finish_eq (cpt := cpt) (K := K) (obs := obs) hc up0
  rw [Z, dom_full hobs hmem] at this
  rw [show bpRow (par ps) cpt K post root obs =
    finish cpt K obs root (post.foldl (upStep (par ps) cpt (pickSum K) obs) up0) from rfl, this]
  exact Finset.sum_congr rfl fun x _ => expL_obj_full hmem x

theorem completions_complete {F K : ℕ} {x : Fin F → ℕ} (hx : ∀ i, x i < K) :
    completions K (fun i => some (x i)) = {x} := by
  ext y
  simp only [completions, Finset.mem_filter, Fintype.mem_piFinset, Finset.mem_range, Option.some.injEq,
    Finset.mem_singleton]
  constructor
  · rintro ⟨_, h⟩
    funext i
    exact h i _ rfl
  · rintro rfl
    exact ⟨hx, fun i v h => h⟩

theorem expL_fastRow (ps : List ℤ) (cpt : Fin ps.length → ℕ → ℕ → LogV) (x : Fin ps.length → ℕ) :
    expL (fastRow (par ps) cpt x) = joint ps cpt x := by
  unfold fastRow joint
  rw [expL_sum]
  refine Finset.prod_congr rfl fun i _ => ?_
  unfold pval
  rcases par ps i with _ | p <;> rfl

/-- C23: on complete rows table indexing and belief propagation agree. -/
theorem C23_fast_path_agrees {ps : List ℤ} (hne : ps ≠ []) (ht : IsTree ps) {pre post : List (Fin ps.length)}
    {root : Fin ps.length} (ho : computeOrders ps = .ok (pre, post)) (hr : roots ps = [root]) {K : ℕ}
    {x : Fin ps.length → ℕ} (hx : ∀ i, x i < K) (cpt : Fin ps.length → ℕ → ℕ → LogV) :
    fastRow (par ps) cpt x = bpRow (par ps) cpt K post root fun i => some (x i) := by
  apply expL_injective
  rw [expL_fastRow, C23_bp_exact hne ht ho hr (fun i v h => by cases h; exact hx i), completions_complete hx,
    Finset.sum_singleton]

/-- C23: for a rooted tree and any batch of integer rows (with missing entries), `log_likelihood` never raises and
returns for every row the log of the sum over its completions - whatever other rows are in the batch. -/
theorem C23_log_likelihood {ps : List ℤ} (hne : ps ≠ []) (ht : IsTree ps) (K : ℕ)
    (cpt : Fin ps.length → ℕ → ℕ → LogV) (rows : List (Fin ps.length → Option ℕ)) (hrows : ∀ o ∈ rows, RowOk K o) :
    logLikelihood ps K cpt (rows.map toData) =
      .ok (rows.map fun o => logL (∑ x ∈ completions K o, joint ps cpt x)) := by
  obtain ⟨r, post, hr, ho, hc, hmem⟩ := tree_chain hne ht
  unfold logLikelihood
  rw [if_neg, if_neg (by rw [tree_hasStructure ht]; simp), ho, hr]
  · simp only
    split
    · rename_i hfull
      congr 1
      rw [List.map_map]
      refine List.map_congr_left fun o hoo => ?_
      have hsome : ∀ i, ∃ v, o i = some v := by
        intro i
        have := hfull (toData o) (List.mem_map_of_mem hoo) i
        unfold toData at this
        rcases h : o i with _ | v
        · rw [h] at this; exact absurd rfl this
        · exact ⟨v, rfl⟩
      choose x hx using hsome
      have hox : o = fun i => some (x i) := funext hx
      have hlt : ∀ i, x i < K := fun i => hrows o hoo i _ (hx i)
      have htr : truncObs (toData o) = x := by
        funext i
        simp [truncObs, toData, hx i]
      apply expL_injective
      rw [expL_logL (Finset.sum_nonneg fun y _ => joint_nonneg ps cpt y), Function.comp, htr, expL_fastRow, hox,
        completions_complete hlt, Finset.sum_singleton]
    · rw [if_neg]
      · congr 1
        rw [List.map_map]
        refine List.map_congr_left fun o hoo => ?_
        apply expL_injective
        rw [expL_logL (Finset.sum_nonneg fun y _ => joint_nonneg ps cpt y), Function.comp, roundObs_toData,
          C23_bp_exact hne ht ho hr (hrows o hoo)]
      · rintro ⟨row, hrow, i, _, v, hv, hk⟩
        obtain ⟨o, hoo, rfl⟩ := List.mem_map.1 hrow
        rw [roundObs_toData] at hv
        exact absurd (hrows o hoo i v hv) (not_lt.2 hk)
  · rw [not_not]
    intro row hrow i
    obtain ⟨o, hoo, rfl⟩ := List.mem_map.1 hrow
    exact validEntry_toData (hrows o hoo) i

theorem sum_completions_none {ps : List ℤ} (hne : ps ≠ []) (ht : IsTree ps) {K : ℕ}
    {cpt : Fin ps.length → ℕ → ℕ → LogV}
    (hcol : ∀ i p, par ps i = some p → ∀ y < K, ∑ v ∈ Finset.range K, expL (cpt i v y) = 1)
    (hroot : ∀ i, par ps i = none → ∑ v ∈ Finset.range K, expL (cpt i v 0) = 1) :
    ∑ x ∈ completions K (fun _ => none), joint ps cpt x = 1 := by
  obtain ⟨r, post, hr, ho, hc, hmem⟩ := tree_chain hne ht
  have key := chain_induct (pa := par ps) (r := r)
    (motive := fun L => Z (par ps) cpt K (fun _ => none) L (fun _ _ => 0) = 1) ?_ ?_ post hc
  · unfold Z at key
    rw [dom_full (fun i v h => by cases h) hmem] at key
    rw [← key]
    exact Finset.sum_congr rfl fun x _ => (expL_obj_full hmem x).symm
  · intro hpr
    rw [show (fun _ _ => 0 : Fin ps.length → ℕ → LogV) = up0.cs from rfl, Z_root hpr, expL_finish]
    rw [← hroot r hpr]
    refine Finset.sum_congr rfl fun v _ => ?_
    simp [rootScore, up0]
  · intro i l p hp hpl hi _ hcl ih
    unfold Z at ih ⊢
    rw [sum_dom_cons hi, ← ih]
    refine Finset.sum_congr rfl fun x hx => ?_
    have hxp : x p < K := by
      simp only [Dom, Fintype.mem_piFinset] at hx
      have := hx p
      rw [if_pos hpl] at this
      simpa [vals] using this
    have : ∀ v ∈ vals K (fun _ => none) i, expL (obj (par ps) cpt (i :: l) (fun _ _ => 0) (Function.update x i v)) =
        expL (cpt i v (x p)) * expL (obj (par ps) cpt l (fun _ _ => 0) x) := by
      intro v _
      rw [obj_cons_update hp hpl hi hcl.pf, add_zero, expL_add]
    rw [Finset.sum_congr rfl this, ← Finset.sum_mul]
    rw [show vals K (fun _ => none) i = Finset.range K from rfl, hcol i p hp _ hxp, one_mul]

/-- C23: if the columns of the tables are distributions, so is the tree: the joint sums to one over all rows. -/
theorem C23_normalised {ps : List ℤ} (hne : ps ≠ []) (ht : IsTree ps) {K : ℕ}
    {cpt : Fin ps.length → ℕ → ℕ → LogV}
    (hcol : ∀ i p, par ps i = some p → ∀ y < K, ∑ v ∈ Finset.range K, expL (cpt i v y) = 1)
    (hroot : ∀ i, par ps i = none → ∑ v ∈ Finset.range K, expL (cpt i v 0) = 1) :
    ∑ x ∈ Fintype.piFinset (fun _ : Fin ps.length => Finset.range K), joint ps cpt x = 1 := by
  rw [← sum_completions_none hne ht hcol hroot]
  refine Finset.sum_congr ?_ fun _ _ => rfl
  ext x
  simp [completions]

/-- C23 is FALSE when the parents contain a cycle beside the root (which C25 says is accepted): the likelihood of a
complete row changes when a row with a missing value is added to the batch. -/
theorem C23_cycle_batch_dependent : ∃ cpt : Fin ([-1, 2, 1] : List ℤ).length → ℕ → ℕ → LogV,
    ∃ a b c : LogV, ∃ row row' : Fin ([-1, 2, 1] : List ℤ).length → Option ℝ,
    logLikelihood [-1, 2, 1] 2 cpt [row] = .ok [a] ∧ logLikelihood [-1, 2, 1] 2 cpt [row, row'] = .ok [b, c] ∧ a ≠ b := by
  refine ⟨fun _ _ _ => logL (1/2), fastRow (par [-1, 2, 1]) (fun _ _ _ => logL (1/2)) (truncObs fun _ => some 0),
    bpRow (par [-1, 2, 1]) (fun _ _ _ => logL (1/2)) 2 [0] 0 (roundObs fun _ => some 0),
    bpRow (par [-1, 2, 1]) (fun _ _ _ => logL (1/2)) 2 [0] 0 (roundObs fun _ => none),
    fun _ => some 0, fun _ => none, ?_, ?_, ?_⟩
  · unfold logLikelihood
    rw [if_neg, if_neg (by decide)]
    · rw [show computeOrders [-1, 2, 1] = .ok ([0], [0]) from rfl, show roots [-1, 2, 1] = [0] from rfl]
      simp
    · simp [validEntry]
      norm_num
  · unfold logLikelihood
    rw [if_neg, if_neg (by decide)]
    · rw [show computeOrders [-1, 2, 1] = .ok ([0], [0]) from rfl, show roots [-1, 2, 1] = [0] from rfl]
      simp only
      rw [if_neg, if_neg]
      · simp
      · simp [roundObs]
      · simp
    · simp [validEntry]
      norm_num
  · intro h
    have h := congrArg expL h
    rw [expL_fastRow] at h
    have e : bpRow (par ([-1, 2, 1] : List ℤ)) (fun _ _ _ => logL (1/2)) 2 [0] 0 (roundObs fun _ => some 0) =
        logL (1/2) := by
      simp [bpRow, roundObs, rootScore, up, upStep, up0, show par ([-1, 2, 1] : List ℤ) 0 = none from rfl]
    rw [e] at h
    simp only [joint, expL_logL (show (0:ℝ) ≤ 1/2 by norm_num), Finset.prod_const, Finset.card_univ] at h
    norm_num at h

/-- C23 is FALSE for values that are only approximately integers (accepted by the validation): complete batches truncate
them, other batches round them. -/
theorem C23_truncation_batch_dependent : ∃ cpt : Fin ([-1, 0] : List ℤ).length → ℕ → ℕ → LogV,
    ∃ a b c : LogV, ∃ row row' : Fin ([-1, 0] : List ℤ).length → Option ℝ,
    logLikelihood [-1, 0] 2 cpt [row] = .ok [a] ∧ logLikelihood [-1, 0] 2 cpt [row, row'] = .ok [b, c] ∧ a ≠ b := by
  have hround : round (1 - 1e-6 : ℝ) = 1 := by
    rw [round_eq, Int.floor_eq_iff]; norm_num
  refine ⟨fun _ v _ => if v = 0 then ⊥ else 0,
    fastRow (par [-1, 0]) (fun _ v _ => if v = 0 then ⊥ else 0) (truncObs fun _ => some (1 - 1e-6)),
    bpRow (par [-1, 0]) (fun _ v _ => if v = 0 then ⊥ else 0) 2 [1, 0] 0 (roundObs fun _ => some (1 - 1e-6)),
    bpRow (par [-1, 0]) (fun _ v _ => if v = 0 then ⊥ else 0) 2 [1, 0] 0 (roundObs fun _ => none),
    fun _ => some (1 - 1e-6), fun _ => none, ?_, ?_, ?_⟩
  · unfold logLikelihood
    rw [if_neg, if_neg (by decide)]
    · rw [show computeOrders [-1, 0] = .ok ([0, 1], [1, 0]) from rfl, show roots [-1, 0] = [0] from rfl]
      simp
    · simp only [validEntry, hround, List.mem_singleton, forall_eq, not_not]
      norm_num
  · unfold logLikelihood
    rw [if_neg, if_neg (by decide)]
    · rw [show computeOrders [-1, 0] = .ok ([0, 1], [1, 0]) from rfl, show roots [-1, 0] = [0] from rfl]
      simp only
      rw [if_neg, if_neg]
      · simp
      · simp [roundObs, hround]
      · simp
    · rw [not_not]
      intro row hrow i
      simp only [List.mem_cons, List.not_mem_nil, or_false] at hrow
      rcases hrow with rfl | rfl
      · simp only [validEntry, hround]; norm_num
      · trivial
  · intro h
    have ht : IsTree [-1, 0] := by
      refine ⟨⟨⟨0, rfl, ?_⟩, ?_⟩, ?_⟩
      · intro j hj
        fin_cases j
        · rfl
        · simp at hj
      · intro i; fin_cases i <;> simp
      · intro i
        have h0 : Reach [-1, 0] 0 := .root rfl
        fin_cases i
        · exact h0
        · exact .step (p := 0) rfl h0
    have hob : (roundObs fun _ : Fin ([-1, 0] : List ℤ).length => some (1 - 1e-6 : ℝ)) = fun _ => some 1 := by
      funext i; simp [roundObs, hround]
    have h := congrArg expL h
    rw [expL_fastRow, hob, C23_bp_exact (K := 2) (obs := fun _ => some 1) (by simp) ht (pre := [0, 1]) (post := [1, 0])
      (root := 0) rfl rfl (fun i v h => by cases h; norm_num), completions_complete (fun i => by norm_num), Finset.sum_singleton] at h
    have htr : (truncObs fun _ : Fin ([-1, 0] : List ℤ).length => some (1 - 1e-6 : ℝ)) = fun _ => 0 := by
      funext i
      simp only [truncObs, Option.getD_some]
      rw [Nat.floor_eq_zero]; norm_num
    rw [htr] at h
    simp [joint] at h

/-! ## C24: MPE -/

theorem argmaxN_spec {n : ℕ} (hn : 0 < n) (l : ℕ → LogV) : argmaxN n l < n ∧ ∀ j < n, l j ≤ l (argmaxN n l) := by
  classical
  obtain ⟨m, hm, hmax⟩ := Finset.exists_max_image (Finset.range n) l ⟨0, Finset.mem_range.2 hn⟩
  unfold argmaxN
  rcases hf : (List.range n).find? (fun i => (List.range n).all fun j => decide (l j ≤ l i)) with _ | i
  · rw [List.find?_eq_none] at hf
    exfalso
    refine hf m (List.mem_range.2 (Finset.mem_range.1 hm)) ?_
    rw [List.all_eq_true]
    intro j hj
    exact decide_eq_true (hmax j (Finset.mem_range.2 (List.mem_range.1 hj)))
  · have h1 := List.find?_some hf
    have h2 := List.mem_of_find?_eq_some hf
    rw [Option.getD_some]
    refine ⟨List.mem_range.1 h2, fun j hj => ?_⟩
    rw [List.all_eq_true] at h1
    exact of_decide_eq_true (h1 j (List.mem_range.2 hj))

section
variable {F : ℕ} {pa : Fin F → Option (Fin F)} {cpt : Fin F → ℕ → ℕ → LogV} {K : ℕ} {obs : Fin F → Option ℕ}

/-- The downward MPE loop (named, to reason about it). -/
noncomputable def mpeDown (pa : Fin F → Option (Fin F)) (root : Fin F) (obs : Fin F → Option ℕ) (s : Up F)
    (a : Fin F → ℕ) (i : Fin F) : Fin F → ℕ :=
  if i = root then a else
  match pa i with
  | none => a
  | some p => match obs i with
    | some x => Function.update a i x
    | none => Function.update a i (s.bp i (a p))

/-- Root choice of the MPE. -/
noncomputable def mpeRoot (cpt : Fin F → ℕ → ℕ → LogV) (K : ℕ) (root : Fin F) (obs : Fin F → Option ℕ) (s : Up F) : ℕ :=
  match obs root with | some x => x | none => argmaxN K (rootScore cpt s root)

theorem mpeRow_eq (pre post : List (Fin F)) (root : Fin F) :
    mpeRow pa cpt K pre post root obs =
      pre.foldl (mpeDown pa root obs (up pa cpt (pickMax K) obs post))
        (Function.update (fun _ => 0) root (mpeRoot cpt K root obs (up pa cpt (pickMax K) obs post))) := by
  unfold mpeRow
  simp only
  congr 1

theorem msg_max_le (hK : 0 < K) (cs : Fin F → ℕ → LogV) (i : Fin F) (y : ℕ) {v : ℕ} (hv : v ∈ vals K obs i) :
    cpt i v y + cs i v ≤ msg cpt (pickMax K) obs cs i y := by
  unfold vals at hv
  unfold msg
  rcases ho : obs i with _ | w
  · rw [ho] at hv
    exact (argmaxN_spec hK (fun v => cpt i v y + cs i v)).2 v (by simpa using hv)
  · rw [ho] at hv
    simp only [Finset.mem_singleton] at hv
    rw [hv]

/-- The MPE assignment of a chain, from any state of the upward pass, is compatible and has maximal score. -/
theorem mpe_chain {r : Fin F} (hK : 0 < K) {L : List (Fin F)} (h : Chain pa r L) :
    ∀ s : Up F,
      let sF := L.foldl (upStep pa cpt (pickMax K) obs) s
      let a := L.reverse.foldl (mpeDown pa r obs sF) (Function.update (fun _ => 0) r (mpeRoot cpt K r obs sF))
      (∀ j ∈ L, a j ∈ vals K obs j) ∧
      ∀ x : Fin F → ℕ, (∀ j ∈ L, x j ∈ vals K obs j) → obj pa cpt L s.cs x ≤ obj pa cpt L s.cs a := by
  refine chain_induct (r := r) (motive := fun L => ∀ s : Up F,
      let sF := L.foldl (upStep pa cpt (pickMax K) obs) s
      let a := L.reverse.foldl (mpeDown pa r obs sF) (Function.update (fun _ => 0) r (mpeRoot cpt K r obs sF))
      (∀ j ∈ L, a j ∈ vals K obs j) ∧
      ∀ x : Fin F → ℕ, (∀ j ∈ L, x j ∈ vals K obs j) → obj pa cpt L s.cs x ≤ obj pa cpt L s.cs a) ?_ ?_ L h
  · intro hr s
    have hs : upStep pa cpt (pickMax K) obs s r = s := by unfold upStep; rw [hr]
    have hd : ∀ a, mpeDown pa r obs s a r = a := by intro a; unfold mpeDown; rw [if_pos rfl]
    simp only [List.foldl_cons, List.foldl_nil, hs, List.reverse_singleton, hd, List.mem_singleton, forall_eq,
      Function.update_self]
    constructor
    · unfold mpeRoot vals
      rcases obs r with _ | v
      · exact Finset.mem_range.2 (argmaxN_spec hK _).1
      · simp
    · intro x hx
      have he : ∀ y : Fin F → ℕ, obj pa cpt [r] s.cs y = rootScore cpt s r (y r) := by
        intro y
        simp [obj, wt, pval, hr, rootScore]
      rw [he, he, Function.update_self]
      unfold mpeRoot
      unfold vals at hx
      rcases ho : obs r with _ | v
      · rw [ho] at hx
        exact (argmaxN_spec hK (rootScore cpt s r)).2 _ (by simpa using hx)
      · rw [ho] at hx
        simp only [Finset.mem_singleton] at hx
        rw [hx]
  · intro i l p hp hpl hi hir hc ih s
    simp only [List.foldl_cons, List.reverse_cons, List.foldl_append, List.foldl_nil]
    obtain ⟨ih1, ih2⟩ := ih (upStep pa cpt (pickMax K) obs s i)
    set sF := l.foldl (upStep pa cpt (pickMax K) obs) (upStep pa cpt (pickMax K) obs s i) with hsF
    set a := l.reverse.foldl (mpeDown pa r obs sF) (Function.update (fun _ => 0) r (mpeRoot cpt K r obs sF)) with ha
    -- the value chosen for node i
    obtain ⟨v, hv, hdown, hopt⟩ : ∃ v, v ∈ vals K obs i ∧ mpeDown pa r obs sF a i = Function.update a i v ∧
        msg cpt (pickMax K) obs s.cs i (a p) = cpt i v (a p) + s.cs i v := by
      unfold mpeDown
      rw [if_neg hir, hp]
      rcases ho : obs i with _ | w
      · refine ⟨argmaxN K fun v => cpt i v (a p) + s.cs i v, ?_, ?_, ?_⟩
        · unfold vals; rw [ho]; exact Finset.mem_range.2 (argmaxN_spec hK _).1
        · simp only
          congr 1
          rw [hsF, (up_final hc.pf hi _).2, upStep_bp hp ho]
          rfl
        · unfold msg; rw [ho]; rfl
      · refine ⟨w, ?_, rfl, ?_⟩
        · unfold vals; rw [ho]; simp
        · unfold msg; rw [ho]
    rw [hdown]
    constructor
    · intro j hj
      by_cases hji : j = i
      · subst hji; simpa using hv
      · rw [Function.update_of_ne hji]
        exact ih1 j ((List.mem_cons.1 hj).resolve_left hji)
    · intro x hx
      have hpi : p ≠ i := by rintro rfl; exact hi hpl
      have h1 : obj pa cpt (i :: l) s.cs x = (cpt i (x i) (x p) + s.cs i (x i)) + obj pa cpt l s.cs x := by
        have := obj_cons_update (cpt := cpt) hp hpl hi hc.pf s.cs x (x i)
        rwa [Function.update_eq_self] at this
      rw [h1, obj_cons_update hp hpl hi hc.pf]
      have h2 := ih2 x fun j hj => hx j (by simp [hj])
      rw [upStep_cs hp, obj_update_cs hpl, obj_update_cs hpl, hopt] at h2
      refine le_trans (add_le_add_left (msg_max_le hK s.cs i (x p) (hx i (by simp))) _) h2

end

theorem mem_completions_iff {F K : ℕ} {obs : Fin F → Option ℕ} (hobs : RowOk K obs) (x : Fin F → ℕ) :
    x ∈ completions K obs ↔ ∀ j, x j ∈ vals K obs j := by
  have := dom_full hobs (L := List.finRange F) (fun i => List.mem_finRange i)
  rw [← this]
  simp [Dom]

/-- C24: for a rooted tree, any tables (also with zero probabilities) and any evidence, the MPE completion agrees with the
evidence and no other completion has a larger joint probability. -/
theorem C24_mpe_optimal {ps : List ℤ} (hne : ps ≠ []) (ht : IsTree ps) {pre post : List (Fin ps.length)}
    {root : Fin ps.length} (ho : computeOrders ps = .ok (pre, post)) (hr : roots ps = [root]) {K : ℕ} (hK : 0 < K)
    {obs : Fin ps.length → Option ℕ} (hobs : RowOk K obs) (cpt : Fin ps.length → ℕ → ℕ → LogV) :
    mpeRow (par ps) cpt K pre post root obs ∈ completions K obs ∧
    ∀ x ∈ completions K obs, joint ps cpt x ≤ joint ps cpt (mpeRow (par ps) cpt K pre post root obs) := by
  obtain ⟨r, post', hr', ho', hc, hmem⟩ := tree_chain hne ht
  rw [ho] at ho'
  simp only [Except.ok.injEq, Prod.mk.injEq] at ho'
  obtain ⟨rfl, rfl⟩ := ho'
  rw [hr] at hr'
  simp only [List.cons.injEq, and_true] at hr'
  subst hr'
  obtain ⟨h1, h2⟩ := mpe_chain (cpt := cpt) (obs := obs) hK hc up0
  rw [mpeRow_eq]
  refine ⟨(mem_completions_iff hobs _).2 fun j => h1 j (hmem j), fun x hx => ?_⟩
  rw [← expL_obj_full hmem, ← expL_obj_full hmem, expL_le_iff]
  exact h2 x fun j _ => (mem_completions_iff hobs x).1 hx j

/-! ## C56: conditional sampling -/

section
variable {F : ℕ} {pa : Fin F → Option (Fin F)} {cpt : Fin F → ℕ → ℕ → LogV} {K : ℕ} {obs : Fin F → Option ℕ}

/-- Root draw followed by the downward loop (named, to reason about it). -/
noncomputable def sampler (pa : Fin F → Option (Fin F)) (cpt : Fin F → ℕ → ℕ → LogV) (K : ℕ) (obs : Fin F → Option ℕ)
    (r : Fin F) (s : Up F) (pre : List (Fin F)) : Prog (Fin F → ℕ) :=
  match obs r with
  | some x => drawNodes pa cpt K r obs s pre (Function.update (fun _ => 0) r x)
  | none => .choose K (rootScore cpt s r) fun x =>
      drawNodes pa cpt K r obs s pre (Function.update (fun _ => 0) r x)

theorem bind_assoc' {α β γ : Type} (p : Prog α) (f : α → Prog β) (g : β → Prog γ) :
    (p.bind f).bind g = p.bind fun a => (f a).bind g := by
  induction p with
  | ret a => rfl
  | fail e => rfl
  | choose n l k ih => simp only [Prog.bind, ih]
  | draw d k ih => simp only [Prog.bind, ih]

theorem bind_ret {α : Type} (p : Prog α) : p.bind .ret = p := by
  induction p with
  | ret a => rfl
  | fail e => rfl
  | choose n l k ih => simp only [Prog.bind, ih]
  | draw d k ih => simp only [Prog.bind, ih]

theorem drawNodes_append (r : Fin F) (s : Up F) (l : List (Fin F)) (i : Fin F) (a : Fin F → ℕ) :
    drawNodes pa cpt K r obs s (l ++ [i]) a = (drawNodes pa cpt K r obs s l a).bind (drawNode pa cpt K r obs s i) := by
  induction l generalizing a with
  | nil =>
    simp only [List.nil_append, drawNodes, Prog.bind]
    exact bind_ret _
  | cons j l ih =>
    simp only [List.cons_append, drawNodes]
    rw [bind_assoc']
    congr 1
    funext b
    exact ih b

theorem sampler_append (r : Fin F) (s : Up F) (l : List (Fin F)) (i : Fin F) :
    sampler pa cpt K obs r s (l ++ [i]) = (sampler pa cpt K obs r s l).bind (drawNode pa cpt K r obs s i) := by
  unfold sampler
  rcases obs r with _ | v
  · simp only [Prog.bind, drawNodes_append]
  · simp only [drawNodes_append]

/-- A categorical draw restricted to the compatible values. -/
theorem E_pick {α : Type} (i : Fin F) (f : ℕ → LogV) (k : ℕ → Prog α) (h : α → ENNReal)
    (hz : ∑ v ∈ vals K obs i, expL (f v) ≠ 0) :
    (match obs i with | some v => k v | none => Prog.choose K f k).E h =
      ∑ v ∈ vals K obs i, ENNReal.ofReal (expL (f v) / ∑ w ∈ vals K obs i, expL (f w)) * (k v).E h := by
  unfold vals at hz ⊢
  rcases ho : obs i with _ | v
  · simp only [Prog.E, softmax_eq]
  · rw [ho] at hz
    simp only [Finset.sum_singleton] at hz ⊢
    rw [div_self hz, ENNReal.ofReal_one, one_mul]

theorem E_drawNode {r i p : Fin F} (hir : i ≠ r) (hp : pa i = some p) (s : Up F) (a : Fin F → ℕ)
    (h : (Fin F → ℕ) → ENNReal) (hz : ∑ v ∈ vals K obs i, expL (cpt i v (a p) + s.cs i v) ≠ 0) :
    (drawNode pa cpt K r obs s i a).E h = ∑ v ∈ vals K obs i,
      ENNReal.ofReal (expL (cpt i v (a p) + s.cs i v) / ∑ w ∈ vals K obs i, expL (cpt i w (a p) + s.cs i w)) *
        h (Function.update a i v) := by
  have := E_pick (K := K) (obs := obs) i (fun v => cpt i v (a p) + s.cs i v)
    (fun v => Prog.ret (Function.update a i v)) h hz
  simp only [Prog.E] at this
  rw [← this]
  unfold drawNode
  rw [if_neg hir, hp]
  rcases obs i with _ | v <;> rfl

/-- Law of the sampler of a chain from any state of the upward pass. -/
theorem E_sampler {r : Fin F} {L : List (Fin F)} (hch : Chain pa r L) :
    ∀ (s : Up F) (h : (Fin F → ℕ) → ENNReal), Z pa cpt K obs L s.cs ≠ 0 →
      (sampler pa cpt K obs r (L.foldl (upStep pa cpt (pickSum K) obs) s) L.reverse).E h =
        ∑ x ∈ Dom K obs L, ENNReal.ofReal (expL (obj pa cpt L s.cs x) / Z pa cpt K obs L s.cs) * h x := by
  refine chain_induct (r := r) (motive := fun L => ∀ (s : Up F) (h : (Fin F → ℕ) → ENNReal), Z pa cpt K obs L s.cs ≠ 0 →
      (sampler pa cpt K obs r (L.foldl (upStep pa cpt (pickSum K) obs) s) L.reverse).E h =
        ∑ x ∈ Dom K obs L, ENNReal.ofReal (expL (obj pa cpt L s.cs x) / Z pa cpt K obs L s.cs) * h x) ?_ ?_ L hch
  · intro hr s h hz
    have hs : upStep pa cpt (pickSum K) obs s r = s := by unfold upStep; rw [hr]
    simp only [List.foldl_cons, List.foldl_nil, hs, List.reverse_singleton]
    have hroot : ∑ v ∈ vals K obs r, expL (rootScore cpt s r v) ≠ 0 := by
      rw [Z_root hr, expL_finish] at hz; exact hz
    have hE := E_pick (K := K) (obs := obs) r (rootScore cpt s r)
      (fun v => Prog.ret (Function.update (fun _ => 0) r v)) h hroot
    have hsam : sampler pa cpt K obs r s [r] = (match obs r with
        | some v => Prog.ret (Function.update (fun _ => 0) r v)
        | none => Prog.choose K (rootScore cpt s r) fun v => Prog.ret (Function.update (fun _ => 0) r v)) := by
      unfold sampler
      have : ∀ a, drawNodes pa cpt K r obs s [r] a = .ret a := by
        intro a
        simp [drawNodes, drawNode, Prog.bind]
      simp only [this]
    rw [hsam, hE, sum_dom_cons (by simp), dom_nil, Finset.sum_singleton]
    refine Finset.sum_congr rfl fun v _ => ?_
    rw [Z_root hr, expL_finish]
    simp [obj, wt, pval, hr, rootScore, Prog.E]
  · intro i l p hp hpl hi hir hc ih s h hz
    have hz' : Z pa cpt K obs l (upStep pa cpt (pickSum K) obs s i).cs ≠ 0 := by rwa [← Z_cons hp hpl hi hc.pf]
    simp only [List.foldl_cons, List.reverse_cons]
    rw [sampler_append, Prog.E_bind, ih _ _ hz', sum_dom_cons hi]
    refine Finset.sum_congr rfl fun x _ => ?_
    rw [← Z_cons hp hpl hi hc.pf, upStep_cs hp, obj_update_cs hpl, expL_add, expL_msg]
    set T := ∑ v ∈ vals K obs i, expL (cpt i v (x p) + s.cs i v) with hT
    set ZZ := Z pa cpt K obs (i :: l) s.cs
    have hcs : (l.foldl (upStep pa cpt (pickSum K) obs) (upStep pa cpt (pickSum K) obs s i)).cs i = s.cs i := by
      rw [(up_final hc.pf hi _).1, upStep_cs hp, Function.update_of_ne]
      rintro rfl; exact hi hpl
    have hZ0 : 0 ≤ ZZ := Finset.sum_nonneg fun _ _ => expL_nonneg _
    by_cases hT0 : T = 0
    · rw [hT0, zero_mul, zero_div, ENNReal.ofReal_zero, zero_mul]
      symm
      refine Finset.sum_eq_zero fun v hv => ?_
      have : expL (cpt i v (x p) + s.cs i v) = 0 := by
        rw [hT] at hT0
        exact (Finset.sum_eq_zero_iff_of_nonneg fun _ _ => expL_nonneg _).1 hT0 v hv
      rw [obj_cons_update hp hpl hi hc.pf, expL_add, this]
      simp
    · rw [E_drawNode hir hp _ _ _ (by rw [hcs]; exact hT0), hcs, ← hT, Finset.mul_sum]
      refine Finset.sum_congr rfl fun v _ => ?_
      rw [← mul_assoc, ← ENNReal.ofReal_mul (div_nonneg (mul_nonneg
        (Finset.sum_nonneg fun _ _ => expL_nonneg _) (expL_nonneg _)) hZ0)]
      congr 2
      rw [obj_cons_update hp hpl hi hc.pf, expL_add (cpt i v (x p) + s.cs i v)]
      have hzz : ZZ ≠ 0 := hz
      rw [← hT]
      field_simp

end

/-- C56: given evidence of positive probability, the sampler returns each completion with its conditional probability
`joint / marginal likelihood`, and nothing else. -/
theorem C56_sample_law {ps : List ℤ} (hne : ps ≠ []) (ht : IsTree ps) {pre post : List (Fin ps.length)}
    {root : Fin ps.length} (ho : computeOrders ps = .ok (pre, post)) (hr : roots ps = [root]) {K : ℕ}
    {obs : Fin ps.length → Option ℕ} (hobs : RowOk K obs) (cpt : Fin ps.length → ℕ → ℕ → LogV)
    (hpos : ∑ y ∈ completions K obs, joint ps cpt y ≠ 0) (x : Fin ps.length → ℕ) :
    (sampleRow (par ps) cpt K pre post root obs).prob x =
      if x ∈ completions K obs then
        ENNReal.ofReal (joint ps cpt x / ∑ y ∈ completions K obs, joint ps cpt y) else 0 := by
  obtain ⟨r, post', hr', ho', hc, hmem⟩ := tree_chain hne ht
  rw [ho] at ho'
  simp only [Except.ok.injEq, Prod.mk.injEq] at ho'
  obtain ⟨rfl, rfl⟩ := ho'
  rw [hr] at hr'
  simp only [List.cons.injEq, and_true] at hr'
  subst hr'
  have hZ : Z (par ps) cpt K obs post up0.cs = ∑ y ∈ completions K obs, joint ps cpt y := by
    unfold Z
    rw [dom_full hobs hmem]
    exact Finset.sum_congr rfl fun y _ => expL_obj_full hmem y
  have hs : sampleRow (par ps) cpt K post.reverse post root obs =
      sampler (par ps) cpt K obs root (post.foldl (upStep (par ps) cpt (pickSum K) obs) up0) post.reverse := by
    unfold sampleRow sampler up
    rcases obs root with _ | v <;> rfl
  rw [hs, Prog.prob, E_sampler hc _ _ (by rw [hZ]; exact hpos), hZ, dom_full hobs hmem]
  classical
  simp only [mul_ite, mul_one, mul_zero, Finset.sum_ite_eq']
  split
  · rw [← expL_obj_full hmem x]; rfl
  · rfl

/-- C56: with evidence of positive probability, some completion is returned with probability one (the sampler raises with
probability zero). -/
theorem C56_total {ps : List ℤ} (hne : ps ≠ []) (ht : IsTree ps) {pre post : List (Fin ps.length)}
    {root : Fin ps.length} (ho : computeOrders ps = .ok (pre, post)) (hr : roots ps = [root]) {K : ℕ}
    {obs : Fin ps.length → Option ℕ} (hobs : RowOk K obs) (cpt : Fin ps.length → ℕ → ℕ → LogV)
    (hpos : ∑ y ∈ completions K obs, joint ps cpt y ≠ 0) :
    ∑ x ∈ completions K obs, (sampleRow (par ps) cpt K pre post root obs).prob x = 1 := by
  have : ∀ x ∈ completions K obs, (sampleRow (par ps) cpt K pre post root obs).prob x =
      ENNReal.ofReal (joint ps cpt x / ∑ y ∈ completions K obs, joint ps cpt y) := by
    intro x hx
    rw [C56_sample_law hne ht ho hr hobs cpt hpos, if_pos hx]
  have h0 : 0 ≤ ∑ y ∈ completions K obs, joint ps cpt y := Finset.sum_nonneg fun y _ => joint_nonneg ps cpt y
  rw [Finset.sum_congr rfl this, ← ENNReal.ofReal_sum_of_nonneg fun x _ => div_nonneg (joint_nonneg ps cpt x) h0,
    ← Finset.sum_div, div_self hpos, ENNReal.ofReal_one]

/-- A concrete tree for the hypotheses of C23, C24 and C56: node 1 is the root, 0 and 3 its children, 2 a child of 3. -/
theorem exampleTree : IsTree [1, -1, 3, 1] := by
  refine ⟨⟨⟨1, rfl, ?_⟩, ?_⟩, ?_⟩
  · intro j hj
    fin_cases j
    · simp at hj
    · rfl
    · simp at hj
    · simp at hj
  · intro i; fin_cases i <;> simp
  · have h1 : Reach [1, -1, 3, 1] 1 := .root rfl
    have h3 : Reach [1, -1, 3, 1] 3 := .step (p := 1) rfl h1
    intro i
    fin_cases i
    · exact .step (p := 1) rfl h1
    · exact h1
    · exact .step (p := 3) rfl h3
    · exact h3

/-- Uniform tables: any evidence has positive probability, so C56 applies. -/
example (obs : Fin ([1, -1, 3, 1] : List ℤ).length → Option ℕ) (hobs : RowOk 2 obs) :
    ∑ x ∈ completions 2 obs, (sampleRow (par [1, -1, 3, 1]) (fun _ _ _ => logL (1/2)) 2 [1, 0, 3, 2] [2, 3, 0, 1] 1
      obs).prob x = 1 := by
  refine C56_total (by simp) exampleTree rfl rfl hobs _ (ne_of_gt ?_)
  refine Finset.sum_pos (fun x _ => Finset.prod_pos fun i _ => ?_) ⟨fun i => (obs i).getD 0, ?_⟩
  · rw [expL_logL (by norm_num)]; norm_num
  · simp only [completions, Finset.mem_filter, Fintype.mem_piFinset, Finset.mem_range]
    refine ⟨fun i => ?_, fun i v h => by simp [h]⟩
    rcases h : obs i with _ | v
    · simp
    · simpa using hobs i v h

end Verif.CLTree

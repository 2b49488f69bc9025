import Verif.QpcNum
import Mathlib.Data.List.GetD
/-
C82, list lemmas about the folded layout: offsets, padding, masks, locations.
-/
namespace Verif.Qpc
open Finset Graph

theorem mapM_some {α β : Type} {f : α → Option β} {h : α → β} :
    ∀ {l : List α}, (∀ a ∈ l, f a = some (h a)) → l.mapM f = some (l.map h)
  | [], _ => by simp
  | a :: l, hl => by
    have ih := mapM_some (f := f) (h := h) (l := l) fun b hb => hl b (List.mem_cons_of_mem _ hb)
    simp [List.mapM_cons, hl a List.mem_cons_self, ih]

theorem mapM_ok' {α β : Type} {f : α → Except Exc β} {h : α → β} :
    ∀ {l : List α}, (∀ a ∈ l, f a = .ok (h a)) → l.mapM f = .ok (l.map h)
  | [], _ => by simp [pure, Except.pure]
  | a :: l, hl => by
    have ih := mapM_ok' (f := f) (h := h) (l := l) fun b hb => hl b (List.mem_cons_of_mem _ hb)
    rw [List.mapM_cons, hl a List.mem_cons_self, ih]
    rfl

/-- The value stored for location `(fold, layer)`. -/
noncomputable def at' (outs : List Ten) (fl : ℕ × ℕ) : ℕ → ℝ := (outs.getD fl.2 ⟨0, []⟩).folds.getD fl.1 0

theorem at'_append {outs : List Ten} {fl : ℕ × ℕ} (h : fl.2 < outs.length) (ts : List Ten) :
    at' (outs ++ ts) fl = at' outs fl := by
  unfold at'
  rw [List.getD_append _ _ _ _ h]

/-- The tensors computed so far have the recorded number of folds. -/
def Lens (counts : List ℕ) (outs : List Ten) : Prop :=
  outs.length = counts.length ∧ ∀ i < outs.length, (outs.getD i ⟨0, []⟩).folds.length = counts.getD i 0

/-- Location `fl` exists. -/
def Valid (counts : List ℕ) (fl : ℕ × ℕ) : Prop := fl.2 < counts.length ∧ fl.1 < counts.getD fl.2 0

theorem cat_length {counts : List ℕ} {F : ℕ → List (ℕ → ℝ)} :
    ∀ {ids : List ℕ}, (∀ i ∈ ids, (F i).length = counts.getD i 0) →
      (ids.flatMap F).length = (ids.map fun i => counts.getD i 0).sum
  | [], _ => by simp
  | i :: is, h => by
    rw [List.flatMap_cons, List.length_append, List.map_cons, List.sum_cons, h i List.mem_cons_self,
      cat_length fun j hj => h j (List.mem_cons_of_mem _ hj)]

theorem cat_get {counts : List ℕ} {F : ℕ → List (ℕ → ℝ)} {l f : ℕ} (hf : f < counts.getD l 0) :
    ∀ {ids : List ℕ}, (∀ i ∈ ids, (F i).length = counts.getD i 0) → l ∈ ids →
      (ids.flatMap F)[baseOf counts ids l + f]? = some ((F l).getD f 0) ∧
        baseOf counts ids l + f < (ids.flatMap F).length
  | [], _, hl => by simp at hl
  | i :: is, h, hl => by
    rw [List.flatMap_cons]
    by_cases hi : i = l
    · subst hi
      have hlt : f < (F i).length := by rw [h i List.mem_cons_self]; exact hf
      rw [baseOf, if_pos rfl, Nat.zero_add, List.length_append]
      refine ⟨?_, by omega⟩
      rw [List.getElem?_append_left hlt, List.getElem?_eq_getElem hlt, List.getD_eq_getElem _ _ hlt]
    · rw [baseOf, if_neg hi]
      have hm : l ∈ is := by
        rcases List.mem_cons.1 hl with e | e
        · exact absurd e.symm hi
        · exact e
      obtain ⟨h1, h2⟩ := cat_get hf (fun j hj => h j (List.mem_cons_of_mem _ hj)) hm
      have e : (F i).length = counts.getD i 0 := h i List.mem_cons_self
      rw [List.length_append]
      refine ⟨?_, by omega⟩
      rw [List.getElem?_append_right (by omega),
        show counts.getD i 0 + baseOf counts is l + f - (F i).length = baseOf counts is l + f by omega]
      exact h1

theorem foldl_max_le {a : ℕ} : ∀ {l : List ℕ} {b : ℕ}, a ∈ l ∨ a ≤ b → a ≤ l.foldl max b
  | [], b, h => by simpa using h
  | c :: l, b, h => by
    rw [List.foldl_cons]
    refine foldl_max_le ?_
    rcases h with h | h
    · rcases List.mem_cons.1 h with e | e
      · right; omega
      · exact .inl e
    · right; omega

theorem foldl_max_mem : ∀ {l : List ℕ} {b : ℕ}, l.foldl max b = b ∨ l.foldl max b ∈ l
  | [], _ => .inl rfl
  | c :: l, b => by
    rw [List.foldl_cons]
    rcases foldl_max_mem (l := l) (b := max b c) with h | h
    · rw [h]
      rcases Nat.le_total b c with hbc | hbc
      · right; rw [max_eq_right hbc]; exact List.mem_cons_self
      · left; exact max_eq_left hbc
    · exact .inr (List.mem_cons_of_mem _ h)

theorem le_maxLen {ls : List ℕ} {a : ℕ} (h : a ∈ ls) : a ≤ maxLen ls := foldl_max_le (.inl h)

/-! ### Locations -/

section
variable {α : Type} (key : α × ℕ → Option ℕ) (lid : ℕ)

/-- Locations assigned in a loop. -/
def assign (key : α × ℕ → Option ℕ) (lid : ℕ) (loc : ℕ → Option (ℕ × ℕ)) (l : List (α × ℕ)) : ℕ → Option (ℕ × ℕ) :=
  l.foldl (fun loc ai => match key ai with
    | some r => Function.update loc r (some (ai.2, lid))
    | none => loc) loc

theorem assign_not {r : ℕ} : ∀ (l : List (α × ℕ)) (loc : ℕ → Option (ℕ × ℕ)), (∀ ai ∈ l, key ai ≠ some r) →
    assign key lid loc l r = loc r
  | [], _, _ => rfl
  | ai :: l, loc, h => by
    unfold assign
    rw [List.foldl_cons]
    have ih := fun loc => assign_not (r := r) l loc fun b hb => h b (List.mem_cons_of_mem _ hb)
    unfold assign at ih
    rw [ih]
    have h0 := h ai List.mem_cons_self
    cases hk : key ai with
    | none => rfl
    | some r' =>
      have : r ≠ r' := fun e => h0 (by rw [hk, e])
      simp [Function.update_of_ne this]

theorem assign_mem {r : ℕ} : ∀ (l : List (α × ℕ)) (loc : ℕ → Option (ℕ × ℕ)), (∃ ai ∈ l, key ai = some r) →
    ∃ ai ∈ l, key ai = some r ∧ assign key lid loc l r = some (ai.2, lid)
  | [], _, h => by simp at h
  | ai :: l, loc, h => by
    by_cases hl : ∃ ai ∈ l, key ai = some r
    · obtain ⟨bi, h1, h2, h3⟩ := assign_mem l (match key ai with
        | some r => Function.update loc r (some (ai.2, lid))
        | none => loc) hl
      exact ⟨bi, List.mem_cons_of_mem _ h1, h2, h3⟩
    · have hk : key ai = some r := by
        obtain ⟨bi, h1, h2⟩ := h
        rcases List.mem_cons.1 h1 with e | e
        · rw [← e]; exact h2
        · exact absurd ⟨bi, e, h2⟩ hl
      refine ⟨ai, List.mem_cons_self, hk, ?_⟩
      have := assign_not key lid (r := r) l (match key ai with
        | some r => Function.update loc r (some (ai.2, lid))
        | none => loc) fun bi hb e => hl ⟨bi, hb, e⟩
      unfold assign at this ⊢
      rw [List.foldl_cons, this, hk]
      simp
end

/-! ### Masks and padding -/

theorem prod_pad {m n : ℕ} (h : m ≤ n) (F : ℕ → ℝ) :
    (∏ i ∈ range n, if i < m then F i else 1) = ∏ i ∈ range m, F i := by
  rw [← prod_subset (range_subset_range.2 h)]
  · exact prod_congr rfl fun i hi => if_pos (mem_range.1 hi)
  · intro i _ hi
    exact if_neg fun hlt => hi (mem_range.2 hlt)

theorem sum_pad {m n : ℕ} (h : m ≤ n) (F : ℕ → ℝ) :
    (∑ i ∈ range n, if i < m then F i else 0) = ∑ i ∈ range m, F i := by
  rw [← sum_subset (range_subset_range.2 h)]
  · exact sum_congr rfl fun i hi => if_pos (mem_range.1 hi)
  · intro i _ hi
    exact if_neg fun hlt => hi (mem_range.2 hlt)

/-- A padded row of indices and its mask: entry `h` is kept exactly if it is not padding. -/
theorem keep_row {is : List ℕ} {total n : ℕ} (hlt : ∀ i ∈ is, i < total) (hn : is.length ≤ n) {h : ℕ} (hh : h < n) :
    keep (some ((is ++ List.replicate (n - is.length) total).map fun i => decide (i < total))) h = decide (h < is.length) := by
  unfold keep
  dsimp only
  rw [List.getD_eq_getElem?_getD, List.getElem?_map]
  by_cases hl : h < is.length
  · rw [List.getElem?_append_left hl, List.getElem?_eq_getElem hl]
    simp [hlt _ (List.getElem_mem hl), hl]
  · rw [List.getElem?_append_right (by omega), List.getElem?_replicate, if_pos (by omega)]
    simp [hl]

/-! ### Indices of the partitions of a region -/

theorem mixIdx_spec (r : ℕ) : ∀ (ps : List (ℕ × List ℕ)) (n : ℕ),
    ∃ is : List ℕ, (ps.zipIdx n).filterMap (fun rpi => if rpi.1.1 = r then some rpi.2 else none) = is ∧
      is.map (fun q => ps[q - n]?) = (ps.filter fun rp => decide (rp.1 = r)).map some ∧ ∀ q ∈ is, n ≤ q ∧ q < n + ps.length
  | [], n => ⟨[], by simp⟩
  | rp :: ps, n => by
    obtain ⟨is, h1, h2, h3⟩ := mixIdx_spec r ps (n + 1)
    have hs : is.map (fun q => (rp :: ps)[q - n]?) = is.map (fun q => ps[q - (n + 1)]?) := by
      refine List.map_congr_left fun q hq => ?_
      obtain ⟨ha, hb⟩ := h3 q hq
      rw [show q - n = (q - (n + 1)) + 1 by omega, List.getElem?_cons_succ]
    rw [List.zipIdx_cons, List.filterMap_cons]
    by_cases hr : rp.1 = r
    · refine ⟨n :: is, ?_, ?_, ?_⟩
      · simp only [hr, if_true]
        rw [h1]
      · rw [List.map_cons, hs, h2, List.filter_cons_of_pos (by simp [hr])]
        simp
      · intro q hq
        rw [List.length_cons]
        rcases List.mem_cons.1 hq with e | e
        · omega
        · have := h3 q e
          omega
    · refine ⟨is, ?_, ?_, ?_⟩
      · simp only [hr, if_false]
        exact h1
      · rw [hs, h2, List.filter_cons_of_neg (by simp [hr])]
      · intro q hq
        have := h3 q hq
        rw [List.length_cons]
        omega

theorem filter_lparts (g : RG) (r : ℕ) : ∀ {regs : List ℕ}, regs.Nodup → r ∈ regs →
    (lparts g regs).filter (fun rp => decide (rp.1 = r)) = (g.parts r).map fun p => (r, p)
  | [], _, h => by simp at h
  | a :: regs, hn, h => by
    obtain ⟨ha, hn'⟩ := List.nodup_cons.1 hn
    have hl : lparts g (a :: regs) = ((g.parts a).map fun p => (a, p)) ++ lparts g regs := by
      unfold lparts; rw [List.flatMap_cons]
    rw [hl, List.filter_append]
    by_cases e : a = r
    · subst e
      rw [List.filter_eq_self.2 (by simp), List.filter_eq_nil_iff.2, List.append_nil]
      intro rp hrp
      unfold lparts at hrp
      obtain ⟨b, hb, hbp⟩ := List.mem_flatMap.1 hrp
      obtain ⟨p, _, rfl⟩ := List.mem_map.1 hbp
      simp only [decide_eq_true_eq]
      intro e
      exact ha (e ▸ hb)
    · have hr : r ∈ regs := by
        rcases List.mem_cons.1 h with e' | e'
        · exact absurd e'.symm e
        · exact e'
      rw [filter_lparts g r hn' hr, List.filter_eq_nil_iff.2, List.nil_append]
      intro rp hrp
      obtain ⟨p, _, rfl⟩ := List.mem_map.1 hrp
      simpa using e

theorem mem_lparts {g : RG} {regs : List ℕ} {r : ℕ} {p : List ℕ} :
    (r, p) ∈ lparts g regs ↔ r ∈ regs ∧ p ∈ g.parts r := by
  unfold lparts
  rw [List.mem_flatMap]
  constructor
  · rintro ⟨a, ha, hp⟩
    obtain ⟨q, hq, e⟩ := List.mem_map.1 hp
    simp only [Prod.mk.injEq] at e
    obtain ⟨rfl, rfl⟩ := e
    exact ⟨ha, hq⟩
  · rintro ⟨ha, hp⟩
    exact ⟨r, ha, List.mem_map.2 ⟨p, hp, rfl⟩⟩

/-- The partitions of `r` occupy, in order, the folds `mixIdx … r` of the partition layer. -/
theorem mixIdx_ok (g : RG) {regs : List ℕ} (hn : regs.Nodup) {r : ℕ} (hr : r ∈ regs) :
    (mixIdx (lparts g regs) r).length = (g.parts r).length ∧
      ∀ j < (g.parts r).length, (lparts g regs)[(mixIdx (lparts g regs) r).getD j 0]? = some (r, (g.parts r).getD j []) ∧
        (mixIdx (lparts g regs) r).getD j 0 < (lparts g regs).length := by
  obtain ⟨is, h1, h2, h3⟩ := mixIdx_spec r (lparts g regs) 0
  have he : mixIdx (lparts g regs) r = is := h1
  rw [filter_lparts g r hn hr] at h2
  have hlen : is.length = (g.parts r).length := by
    have := congrArg List.length h2
    simpa using this
  rw [he]
  refine ⟨hlen, fun j hj => ?_⟩
  have hj' : j < is.length := by omega
  rw [List.getD_eq_getElem _ _ hj', List.getD_eq_getElem _ _ hj]
  have e : (is[j]?).map (fun q => (lparts g regs)[q - 0]?) = some (some (r, (g.parts r)[j])) := by
    rw [← List.getElem?_map, h2]
    simp [hj]
  rw [List.getElem?_eq_getElem hj'] at e
  simp only [Option.map_some, Nat.sub_zero, Option.some.injEq] at e
  refine ⟨e, ?_⟩
  have := (h3 is[j] (List.getElem_mem hj')).2
  omega

end Verif.Qpc

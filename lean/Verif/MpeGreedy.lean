import Verif.MpeProps

/-!
# C15: what `mpe` really maximises

`greedy c` is the circuit in which every Sum unit puts all its weight on the first of its heaviest inputs.  `mpe(data=y)` of `c` returns
a completion of `y` that is most likely under `greedy c`, for every circuit.
-/

namespace Verif
namespace Circ

open Prog

/-- Specification: every Sum unit keeps only (the first of) its heaviest input channels. -/
noncomputable def greedy : Circ → Circ
  | leaf q C R d => leaf q C R d
  | cat1 n cs => cat1 n fun i => greedy (cs i)
  | cat2 n cs => cat2 n fun i => greedy (cs i)
  | prod c => prod (greedy c)
  | sum c Co R θ => sum (greedy c) Co R fun f ci co r => if ci = top (C c) (fun k => θ f k co r) then 0 else ⊥

theorem greedy_shape (c : Circ) : F (greedy c) = F c ∧ C (greedy c) = C c ∧ R (greedy c) = R c ∧ scope (greedy c) = scope c := by
  induction c with
  | leaf => exact ⟨rfl, rfl, rfl, rfl⟩
  | cat1 n cs ih =>
    refine ⟨?_, ?_, ?_, ?_⟩
    · simp only [greedy, F, fun i => (ih i).1]
    · simp only [greedy, C, fun i => (ih i).2.1]
    · simp only [greedy, R, fun i => (ih i).2.2.1]
    · simp only [greedy, scope, fun i => (ih i).2.2.2]
  | cat2 n cs ih =>
    refine ⟨?_, ?_, ?_, ?_⟩
    · simp only [greedy, F, fun i => (ih i).1]
    · simp only [greedy, C, fun i => (ih i).2.1]
    · simp only [greedy, R, fun i => (ih i).2.2.1]
    · simp only [greedy, scope, fun i => (ih i).2.2.2]
  | prod c ih => exact ⟨rfl, ih.2.1, ih.2.2.1, ih.2.2.2⟩
  | sum c Co R θ ih => exact ⟨ih.1, rfl, rfl, ih.2.2.2⟩

theorem greedy_accepted {c : Circ} (h : Accepted c) (hp : PosCh c) : Accepted (greedy c) := by
  induction c with
  | leaf => exact h
  | cat1 n cs ih =>
    refine ⟨fun i => ih i (h.1 i) (hp i), ?_⟩
    rw [← h.2]
    refine check1_congr ?_ ?_ <;> rw [List.map_ofFn, List.map_ofFn] <;> congr 1 <;> funext i
    · exact (greedy_shape _).2.1
    · exact (greedy_shape _).2.2.2
  | cat2 n cs ih =>
    refine ⟨fun i => ih i (h.1 i) (hp i), ?_⟩
    rw [← h.2]
    refine check2_congr ?_ ?_ <;> rw [List.map_ofFn, List.map_ofFn] <;> congr 1 <;> funext i
    · exact (greedy_shape _).1
    · exact (greedy_shape _).2.2.2
  | prod c ih => exact ih h hp
  | sum c Co R θ ih =>
    refine ⟨ih h.1 hp, h.2.1, fun f _ co _ r _ => ⟨top (C c) (fun k => θ f k co r), ?_, ?_⟩⟩
    · rw [(greedy_shape c).2.1]; exact (top_spec (posC h.1 hp) _).1
    · beta_reduce; rw [if_pos rfl]; exact WithBot.coe_ne_bot (a := (0 : ℝ))

theorem greedy_scopes (c : Circ) : (den (greedy c)).map Feat.scope = (den c).map Feat.scope := by
  induction c with
  | leaf => rfl
  | cat1 n cs ih =>
    simp only [greedy, den, List.map_flatten, List.map_ofFn, Function.comp_def, ih]
  | cat2 n cs ih =>
    simp only [greedy, den]
    split_ifs with hn
    · rw [List.mapIdx_eq_zipIdx_map, List.mapIdx_eq_zipIdx_map, List.map_map, List.map_map]
      have : ∀ l : List Feat, l.zipIdx.map (fun p => p.1.scope) = l.map Feat.scope := by
        intro l
        rw [show (fun p : Feat × ℕ => p.1.scope) = Feat.scope ∘ Prod.fst from rfl, ← List.map_map, List.zipIdx_map_fst]
      exact (this _).trans ((ih ⟨0, hn⟩).trans (this _).symm)
    · rfl
  | prod c ih => simp only [greedy, den, List.map_cons, List.map_nil, ih]
  | sum c Co R θ ih =>
    simp only [greedy, den]
    rw [List.mapIdx_eq_zipIdx_map, List.mapIdx_eq_zipIdx_map, List.map_map, List.map_map]
    have : ∀ l : List Feat, l.zipIdx.map (fun p => p.1.scope) = l.map Feat.scope := by
      intro l
      rw [show (fun p : Feat × ℕ => p.1.scope) = Feat.scope ∘ Prod.fst from rfl, ← List.map_map, List.zipIdx_map_fst]
    exact (this _).trans (ih.trans (this _).symm)

theorem greedy_aligned {c : Circ} (h : Aligned c) : Aligned (greedy c) := by
  induction c with
  | leaf => trivial
  | cat1 n cs ih => exact fun i => ih i (h i)
  | cat2 n cs ih => exact ⟨fun i => ih i (h.1 i), fun i j => by rw [greedy_scopes, greedy_scopes]; exact h.2 i j⟩
  | prod c ih => exact ih h
  | sum c _ _ _ ih => exact ih h

theorem greedy_posCh {c : Circ} (h : PosCh c) : PosCh (greedy c) := by
  induction c with
  | leaf => exact h
  | cat1 n cs ih => exact fun i => ih i (h i)
  | cat2 n cs ih => exact fun i => ih i (h i)
  | prod c ih => exact ih h
  | sum c _ _ _ ih => exact ih h

theorem greedy_repS {r : ℕ} {c : Circ} (h : RepS r c) : RepS r (greedy c) := by
  induction c with
  | leaf => exact h
  | cat1 n cs ih => exact fun i => ih i (h i)
  | cat2 n cs ih => exact fun i => ih i (h i)
  | prod c ih => exact ih h
  | sum c _ _ _ ih => exact ⟨ih h.1, h.2⟩

theorem greedy_modeOk {mode : (ℝ → LogV) → ℝ} {c : Circ} (h : ModeOk mode c) : ModeOk mode (greedy c) := by
  induction c with
  | leaf => exact h
  | cat1 n cs ih => exact fun i => ih i (h i)
  | cat2 n cs ih => exact fun i => ih i (h i)
  | prod c ih => exact ih h
  | sum c _ _ _ ih => exact ih h

theorem greedy_oneHot {c : Circ} (h : Accepted c) (hp : PosCh c) : OneHot (greedy c) := by
  induction c with
  | leaf => trivial
  | cat1 n cs ih => exact fun i => ih i (h.1 i) (hp i)
  | cat2 n cs ih => exact fun i => ih i (h.1 i) (hp i)
  | prod c ih => exact ih h hp
  | sum c Co R θ ih =>
    refine ⟨ih h.1 hp, fun f _ co _ r _ => ⟨top (C c) (fun k => θ f k co r), ?_, ?_, fun ci _ hne => if_neg hne⟩⟩
    · rw [(greedy_shape c).2.1]; exact (top_spec (posC h.1 hp) _).1
    · beta_reduce; rw [if_pos rfl]; exact WithBot.coe_ne_bot (a := (0 : ℝ))

theorem top_onehot {n k : ℕ} (hk : k < n) : top n (fun i => if i = k then (0 : LogV) else ⊥) = k := by
  obtain ⟨h1, h2⟩ := top_spec (by omega : 0 < n) (fun i => if i = k then (0 : LogV) else ⊥)
  by_contra hne
  have := h2 k hk
  simp only [if_true, if_neg hne, le_bot_iff] at this
  exact WithBot.coe_ne_bot (a := (0 : ℝ)) this

theorem seqAll_congr {mode : (ℝ → LogV) → ℝ} : ∀ (l l' : List (Row → Prog Row)),
    List.Forall₂ (fun s s' => ∀ y, (s y).mpeRun mode = (s' y).mpeRun mode) l l' →
    ∀ y, (seqAll l y).mpeRun mode = (seqAll l' y).mpeRun mode := by
  intro l l' h
  induction h with
  | nil => intro y; rfl
  | @cons s s' l l' hs _ ih =>
    intro y
    simp only [seqAll]
    rw [mpeRun_bind, mpeRun_bind, hs y]
    cases (s' y).mpeRun mode with
    | error => rfl
    | ok a => exact ih a

theorem forall₂_ofFn_greedy {α : Type} {n : ℕ} {P : α → α → Prop} {f g : Fin n → α} (h : ∀ i, P (f i) (g i)) :
    List.Forall₂ P (List.ofFn f) (List.ofFn g) := by
  rw [List.forall₂_iff_get]
  refine ⟨by simp, fun i h1 h2 => ?_⟩
  simpa using h _

/-- `mpe` cannot tell a circuit from its greedy version. -/
theorem sample_greedy {mode : (ℝ → LogV) → ℝ} {r : ℕ} {c : Circ} (h : Accepted c) (hp : PosCh c) :
    ∀ (ch : ℕ → ℕ) (mask : ℕ → Bool) (y : Row),
      (sample none r (greedy c) ch mask y).mpeRun mode = (sample none r c ch mask y).mpeRun mode := by
  induction c with
  | leaf => exact fun _ _ _ => rfl
  | cat1 n cs ih =>
    intro ch mask y
    have e := greedy_shape (cat1 n cs)
    simp only [greedy] at e
    simp only [greedy, sample, e.1, e.2.1, e.2.2.1, fun i => (greedy_shape (cs i)).1]
    split_ifs
    · rfl
    · exact seqAll_congr _ _ (forall₂_ofFn_greedy fun i y => ih i (h.1 i) (hp i) _ _ y) y
  | cat2 n cs ih =>
    intro ch mask y
    have e := greedy_shape (cat2 n cs)
    simp only [greedy] at e
    simp only [greedy, sample, e.1, e.2.1, e.2.2.1, fun i => (greedy_shape (cs i)).2.1]
    split_ifs
    · rfl
    · cases routeOffsets (F (cat2 n cs)) (List.ofFn fun i : Fin n => C (cs i)) ch mask with
      | error => rfl
      | ok ctx => exact seqAll_congr _ _ (forall₂_ofFn_greedy fun i y => ih i (h.1 i) (hp i) _ _ y) y
  | prod c ih =>
    intro ch mask y
    simp only [greedy, sample, (greedy_shape c).2.1, (greedy_shape c).2.2.1]
    split_ifs
    · rfl
    · exact ih h hp _ _ y
  | sum c Co R θ ih =>
    intro ch mask y
    simp only [greedy, sample, (greedy_shape c).1, (greedy_shape c).2.1]
    split_ifs
    · rfl
    · rfl
    · rw [mpeRun_bind, mpeRun_bind, pickAll_mpe, pickAll_mpe]
      have : (fun f => if f < F c then top (C c) (sumLogits none r (greedy c)
          (fun f ci co r => if ci = top (C c) (fun k => θ f k co r) then 0 else ⊥) ch f) else 0)
          = fun f => if f < F c then top (C c) (sumLogits none r c θ ch f) else 0 := by
        funext f
        split_ifs
        · exact top_onehot (top_spec (posC h.1 hp) _).1
        · rfl
      rw [this]
      exact ih h.1 hp _ _ y

/-- C15, what holds for every circuit: `mpe(data=y)` never raises, returns a completion of the evidence, and that completion is a most
likely one under the circuit in which every Sum unit keeps only its heaviest input.  (It need not be a most likely one under the circuit
itself: `C15_mixture_not_optimal`, `C15_evidence_ignored`.) -/
theorem C15_greedy_partial {mode : (ℝ → LogV) → ℝ} {c : Circ} (h : Accepted c) (hal : Aligned c) (hp : PosCh c)
    (hr : RepS 0 c) (hmode : ModeOk mode c) (y : Row) :
    ∃ z, (sampleData c y).mpeRun mode = .ok z ∧ Completes c y z ∧
      ∀ x, Completes c y x → likelihood (greedy c) x ≤ likelihood (greedy c) z := by
  have hg := greedy_accepted h hp
  obtain ⟨z, h1, h2, h3, h4⟩ := sample_mpe hg (greedy_aligned hal) (greedy_posCh hp) (greedy_repS hr) (greedy_oneHot h hp)
    (greedy_modeOk hmode) (fun _ => 0) (fun _ => true) (fun f _ => posC hg (greedy_posCh hp)) y
  have hsc := (greedy_shape c).2.2.2
  have hm : ∀ v, v ∈ act (greedy c) (fun _ => true) ↔ v ∈ (scope c).query := fun v => by rw [mem_act_all hg, hsc]
  refine ⟨z, ?_, ⟨fun v hv => h2 v ((hm v).2 hv), fun v t hv => ?_, fun v hv => ?_⟩, fun x hx => ?_⟩
  · rw [← h1]; exact (sample_greedy h hp _ _ y).symm
  · rw [← hv]; exact h3 v fun hh => by simp [hv] at hh
  · exact h3 v fun hh => hv ((hm v).1 hh.1)
  · refine Finset.prod_le_prod (fun g _ => expL_nonneg _) fun f hf => ?_
    rw [expL_le_iff]
    refine h4 x (fun v hv => hx.1 v ((hm v).1 hv)) (fun v _ hn => ?_) f (Finset.mem_range.1 hf) rfl
    obtain ⟨t, ht⟩ := Option.ne_none_iff_exists'.1 hn
    rw [ht]; exact hx.2.1 v t ht

/-- ... so `mpe` is optimal whenever every Sum unit already puts all its weight on one input. -/
theorem C15_one_hot_partial {mode : (ℝ → LogV) → ℝ} {c : Circ} (h : Accepted c) (hal : Aligned c) (hp : PosCh c)
    (hr : RepS 0 c) (hs : OneHot c) (hmode : ModeOk mode c) (y : Row) :
    ∃ z, (sampleData c y).mpeRun mode = .ok z ∧ Completes c y z ∧
      ∀ x, Completes c y x → likelihood c x ≤ likelihood c z := by
  obtain ⟨z, h1, h2, h3, h4⟩ := sample_mpe h hal hp hr hs hmode (fun _ => 0) (fun _ => true)
    (fun f _ => posC h hp) y
  refine ⟨z, h1, ⟨fun v hv => h2 v ((mem_act_all h v).2 hv), fun v t hv => ?_, fun v hv => ?_⟩, fun x hx => ?_⟩
  · rw [← hv]; exact h3 v fun hh => by simp [hv] at hh
  · exact h3 v fun hh => hv ((mem_act_all h v).1 hh.1)
  · refine Finset.prod_le_prod (fun g _ => expL_nonneg _) fun f hf => ?_
    rw [expL_le_iff]
    refine h4 x (fun v hv => hx.1 v ((mem_act_all h v).1 hv)) (fun v _ hn => ?_) f (Finset.mem_range.1 hf) rfl
    obtain ⟨t, ht⟩ := Option.ne_none_iff_exists'.1 hn
    rw [ht]; exact hx.2.1 v t ht

/-- The greedy version of the mixture `exMix` is its heavier component. -/
example (x : Row) : likelihood (greedy exMix) x = likelihood (exComp (2/3) 5) x := by
  have hh := exMix_ok
  have hp : PosCh exMix := fun i => by fin_cases i <;> exact fun j => by fin_cases j <;> exact le_rfl
  have hg := greedy_accepted hh.1 hp
  have ht : top 2 (fun k => logL (if k = 0 then 1/4 else 3/4)) = 1 := by
    obtain ⟨h1, h2⟩ := top_spec (n := 2) (by norm_num) (fun k => logL (if k = 0 then 1/4 else 3/4))
    by_contra hne
    have h0 : top 2 (fun k => logL (if k = 0 then 1/4 else 3/4)) = 0 := by omega
    have := h2 1 (by norm_num)
    rw [h0] at this
    simp only [one_ne_zero, if_false, if_true] at this
    exact absurd this (not_le.2 (logL_lt (by norm_num) (by norm_num)))
  show ∏ f ∈ Finset.range 1, _ = ∏ f ∈ Finset.range 1, _
  rw [Finset.prod_range_one, Finset.prod_range_one]
  congr 1
  have := featAt_oneHot (r := 0) (co := 0) (f := 0) (k := 1) hg Nat.one_pos Nat.one_pos Nat.one_pos (by decide)
    (fun ci hci hne => if_neg (by rw [show top (C (cat2 2 ![exComp (1/4) 0, exComp (2/3) 5])) _ = 1 from ht]; exact hne)) x
  exact this.trans rfl

end Circ
end Verif

import Verif.Sampling
import Verif.CircuitInt

/-! Helper lemmas for `SamplingProps.lean`. -/

namespace Verif

namespace Prog

variable {α β : Type}

theorem outcome_bind {p : Prog α} {g : α → Prog β} {b : β} :
    Outcome (p.bind g) b ↔ ∃ a, Outcome p a ∧ Outcome (g a) b := by
  induction p with
  | ret a =>
    constructor
    · intro h; exact ⟨a, .ret, h⟩
    · rintro ⟨_, h1, h2⟩; cases h1; exact h2
  | fail e =>
    constructor
    · intro h; cases h
    · rintro ⟨_, h1, h2⟩; cases h1
  | choose n l k ih =>
    constructor
    · intro h
      cases h with
      | choose hd hi h =>
        obtain ⟨a, h1, h2⟩ := (ih _).1 h
        exact ⟨a, .choose hd hi h1, h2⟩
    · rintro ⟨a, h1, h2⟩
      cases h1 with
      | choose hd hi h => exact .choose hd hi ((ih _).2 ⟨a, h, h2⟩)
  | draw d k ih =>
    constructor
    · intro h
      cases h with
      | draw h =>
        obtain ⟨a, h1, h2⟩ := (ih _).1 h
        exact ⟨a, .draw h1, h2⟩
    · rintro ⟨a, h1, h2⟩
      cases h1 with
      | draw h => exact .draw ((ih _).2 ⟨a, h, h2⟩)

theorem not_fails_bind {p : Prog α} {g : α → Prog β} (hp : ¬ Fails p) (hg : ∀ a, Outcome p a → ¬ Fails (g a)) :
    ¬ Fails (p.bind g) := by
  induction p with
  | ret a => exact hg a .ret
  | fail e => exact absurd .fail hp
  | choose n l k ih =>
    have hd : ¬ Dead n l := fun h => hp (.dead h)
    intro h
    cases h with
    | dead h => exact hd h
    | @choose _ _ _ i hi h =>
      exact ih i (fun h' => hp (.choose hi h')) (fun a ha => hg a (.choose hd hi ha)) h
  | draw d k ih =>
    intro h
    cases h with
    | @draw _ _ t h => exact ih t (fun h' => hp (.draw h')) (fun a ha => hg a (.draw ha)) h

theorem E_bind (p : Prog α) (g : α → Prog β) (h : β → ENNReal) :
    (p.bind g).E h = p.E fun a => (g a).E h := by
  induction p with
  | ret a => rfl
  | fail e => rfl
  | choose n l k ih => simp only [bind, E, ih]
  | draw d k ih => simp only [bind, E, ih]

theorem softmax_dead {n : ℕ} {l : ℕ → LogV} (h : Dead n l) (i : ℕ) : softmax n l i = 0 := by
  rw [softmax_eq, Finset.sum_eq_zero (fun j hj => by rw [h j (Finset.mem_range.1 hj), expL_bot]), div_zero]

theorem E_congr {p : Prog α} {h h' : α → ENNReal} (he : ∀ a, Outcome p a → h a = h' a) : p.E h = p.E h' := by
  induction p with
  | ret a => exact he a .ret
  | fail e => rfl
  | choose n l k ih =>
    simp only [E]
    refine Finset.sum_congr rfl fun i hi => ?_
    by_cases hd : Dead n l
    · simp [softmax_dead hd]
    · rw [ih i fun a ha => he a (.choose hd (Finset.mem_range.1 hi) ha)]
  | draw d k ih =>
    simp only [E]
    congr 1
    funext t
    rw [ih t fun a ha => he a (.draw ha)]

theorem E_mul (p : Prog α) (h : α → ENNReal) (c : ENNReal) : p.E (fun a => h a * c) = p.E h * c := by
  induction p with
  | ret a => rfl
  | fail e => simp [E]
  | choose n l k ih => simp only [E, ih, Finset.sum_mul, mul_assoc]
  | draw d k ih => simp only [E, ih, ← ENNReal.tsum_mul_right, mul_assoc]

theorem E_zero (p : Prog α) : p.E (fun _ => 0) = 0 := by
  induction p with
  | ret a => rfl
  | fail e => rfl
  | choose n l k ih => simp only [E, ih]; simp
  | draw d k ih => simp only [E, ih]; simp

end Prog

namespace Circ

open Prog

/-! ### Samplers with a footprint -/

/-- `s` writes exactly the missing cells of `A`, and fills all of them. -/
def Frames (s : Row → Prog Row) (A : Set Var) : Prop :=
  ∀ y z, Outcome (s y) z → (∀ v ∈ A, z v ≠ none) ∧ ∀ v, ¬ (v ∈ A ∧ y v = none) → z v = y v

/-- never raises -/
def NoFail (s : Row → Prog Row) : Prop := ∀ y, ¬ Fails (s y)

/-- On completions `z` of `y` in `A`, where `y` is the evidence `e` on `A`, the probability of `z` is `ρ z`. -/
def Law (s : Row → Prog Row) (A : Set Var) (e : Row) (ρ : Row → ENNReal) : Prop :=
  ∀ y z : Row, (∀ v ∈ A, y v = e v) → (∀ v ∈ A, z v ≠ none) → (∀ v, ¬ (v ∈ A ∧ y v = none) → z v = y v) →
    (s y).prob z = ρ z

/-- `ρ` only reads variables of `A`. -/
def LocalOn (A : Set Var) (ρ : Row → ENNReal) : Prop := ∀ z z', (∀ v ∈ A, z v = z' v) → ρ z = ρ z'

theorem seqAll_frames {l : List (Row → Prog Row)} {As : List (Set Var)} (h : List.Forall₂ Frames l As) :
    Frames (seqAll l) {v | ∃ A ∈ As, v ∈ A} := by
  induction h with
  | nil =>
    intro y z h
    cases h
    exact ⟨by simp, fun _ _ => rfl⟩
  | @cons s A l As hs hl ih =>
    intro y z h
    rw [seqAll, outcome_bind] at h
    obtain ⟨y1, h1, h2⟩ := h
    obtain ⟨a1, a2⟩ := hs y y1 h1
    obtain ⟨b1, b2⟩ := ih y1 z h2
    constructor
    · rintro v ⟨A', hA', hv⟩
      rcases List.mem_cons.1 hA' with rfl | hA'
      · rw [b2 v (fun hh => a1 v hv hh.2)]; exact a1 v hv
      · exact b1 v ⟨A', hA', hv⟩
    · intro v hv
      have e1 : y1 v = y v := a2 v fun hh => hv ⟨⟨A, by simp, hh.1⟩, hh.2⟩
      rw [b2 v fun hh => ?_, e1]
      obtain ⟨⟨A', hA', hv'⟩, hn⟩ := hh
      exact hv ⟨⟨A', by simp [hA'], hv'⟩, by rw [← e1]; exact hn⟩

theorem seqAll_noFail {l : List (Row → Prog Row)} (h : ∀ s ∈ l, NoFail s) : NoFail (seqAll l) := by
  induction l with
  | nil => intro y h'; cases h'
  | cons s l ih =>
    intro y
    rw [seqAll]
    exact not_fails_bind (h s (by simp) y) fun a _ => ih (fun s hs => h s (by simp [hs])) a

theorem prob_eq_zero {s : Row → Prog Row} {y z : Row} (h : ¬ Outcome (s y) z) : (s y).prob z = 0 := by
  unfold prob
  refine (E_congr fun a ha => if_neg ?_).trans (E_zero (s y))
  rintro rfl
  exact h ha

/-- sampler, footprint and law together -/
structure Blk where
  s : Row → Prog Row
  A : Set Var
  ρ : Row → ENNReal

theorem seqAll_law {e : Row} (l : List Blk) (hfr : ∀ b ∈ l, Frames b.s b.A) (hlaw : ∀ b ∈ l, Law b.s b.A e b.ρ)
    (hloc : ∀ b ∈ l, LocalOn b.A b.ρ) (hdis : l.Pairwise fun a b => Disjoint a.A b.A) :
    Law (seqAll (l.map Blk.s)) {v | ∃ b ∈ l, v ∈ b.A} e fun z => (l.map fun b => b.ρ z).prod := by
  induction l with
  | nil =>
    intro y z _ _ hz
    have : z = y := funext fun v => hz v (by simp)
    subst this
    simp [seqAll, prob, E]
  | cons b l ih =>
    rw [List.pairwise_cons] at hdis
    intro y z hy hz hzy
    have hfrb := hfr b (by simp)
    have ih' := ih (fun b hb => hfr b (by simp [hb])) (fun b hb => hlaw b (by simp [hb]))
      (fun b hb => hloc b (by simp [hb])) hdis.2
    have hfl : Frames (seqAll (l.map Blk.s)) {v | ∃ A ∈ l.map Blk.A, v ∈ A} := by
      apply seqAll_frames
      rw [List.forall₂_map_left_iff, List.forall₂_map_right_iff, List.forall₂_same]
      exact fun b hb => hfr b (by simp [hb])
    have hset : {v | ∃ A ∈ l.map Blk.A, v ∈ A} = {v : Var | ∃ b ∈ l, v ∈ b.A} := by
      ext v; simp
    rw [hset] at hfl
    -- disjointness of the head from the rest
    have hhd : ∀ v ∈ b.A, ¬ ∃ b' ∈ l, v ∈ b'.A := by
      rintro v hv ⟨b', hb', hv'⟩
      exact Set.disjoint_left.1 (hdis.1 b' hb') hv hv'
    classical
    set z1 : Row := fun v => if v ∈ b.A then z v else y v with hz1
    have key : ∀ y1, Outcome (b.s y) y1 → (seqAll (l.map Blk.s) y1).prob z =
        (if y1 = z1 then 1 else 0) * (l.map fun b => b.ρ z).prod := by
      intro y1 ho
      obtain ⟨-, hoff⟩ := hfrb y y1 ho
      have hoff' : ∀ v, v ∉ b.A → y1 v = y v := fun v hv => hoff v fun hh => hv hh.1
      by_cases he : y1 = z1
      · rw [if_pos he, one_mul]
        apply ih' y1 z
        · intro v hv
          have hvn : v ∉ b.A := fun hh => hhd v hh hv
          rw [hoff' v hvn]
          obtain ⟨b', hb', hv'⟩ := hv
          exact hy v ⟨b', by simp [hb'], hv'⟩
        · rintro v ⟨b', hb', hv'⟩
          exact hz v ⟨b', by simp [hb'], hv'⟩
        · intro v hv
          by_cases hvb : v ∈ b.A
          · rw [he, hz1]; simp [hvb]
          · rw [hoff' v hvb]
            apply hzy
            rintro ⟨⟨b', hb', hv'⟩, hn⟩
            rcases List.mem_cons.1 hb' with rfl | hb'
            · exact hvb hv'
            · exact hv ⟨⟨b', hb', hv'⟩, by rw [hoff' v hvb]; exact hn⟩
      · rw [if_neg he, zero_mul]
        apply prob_eq_zero
        intro ho2
        apply he
        obtain ⟨-, c2⟩ := hfl y1 z ho2
        funext v
        by_cases hvb : v ∈ b.A
        · rw [hz1]; simp only [hvb, if_true]
          exact (c2 v fun hh => hhd v hvb hh.1).symm
        · rw [hz1]; simp only [hvb, if_false]
          exact hoff' v hvb
    have step : (seqAll ((b :: l).map Blk.s) y).prob z =
        (b.s y).E fun y1 => (seqAll (l.map Blk.s) y1).prob z := by
      rw [List.map_cons, seqAll]; unfold prob; rw [E_bind]
    rw [step, E_congr key, E_mul]
    have hh : (b.s y).prob z1 = b.ρ z1 := by
      apply hlaw b (by simp)
      · intro v hv; exact hy v ⟨b, by simp, hv⟩
      · intro v hv; rw [hz1]; simp only [hv, if_true]; exact hz v ⟨b, by simp, hv⟩
      · intro v hv
        rw [hz1]
        by_cases hvb : v ∈ b.A
        · simp only [hvb, if_true]
          apply hzy
          rintro ⟨_, hn⟩
          exact hv ⟨hvb, hn⟩
        · simp only [hvb, if_false]
    have hl : b.ρ z1 = b.ρ z := by
      apply hloc b (by simp)
      intro v hv
      rw [hz1]; simp only [hv, if_true]
    unfold prob at hh
    show _ = ((b :: l).map fun b => b.ρ z).prod
    rw [List.map_cons, List.prod_cons, ← hl, ← hh]

/-! ### Cells and choices -/

theorem sampleCell_frames (d : ℝ → LogV) (m : Bool) (v : Var) :
    Frames (sampleCell d m v) {w | m = true ∧ w = v} := by
  intro y z h
  unfold sampleCell at h
  split at h
  · rename_i hb
    simp only [Bool.and_eq_true, Option.isNone_iff_eq_none] at hb
    cases h with
    | draw h =>
      cases h
      refine ⟨?_, ?_⟩
      · rintro w ⟨_, rfl⟩; simp
      · intro w hw
        have : w ≠ v := by rintro rfl; exact hw ⟨⟨hb.1, rfl⟩, hb.2⟩
        simp [this]
  · rename_i hb
    cases h
    refine ⟨?_, fun _ _ => rfl⟩
    rintro w ⟨hm, rfl⟩
    intro hn
    exact hb (by simp [hm, hn])

theorem sampleCell_noFail (d : ℝ → LogV) (m : Bool) (v : Var) : NoFail (sampleCell d m v) := by
  intro y h
  unfold sampleCell at h
  split at h
  · cases h with
    | draw h => cases h
  · cases h

/-- value of a cell -/
noncomputable def cellVal (d : ℝ → LogV) : Option ℝ → LogV
  | none => 0
  | some t => d t

theorem sampleCell_law (d : ℝ → LogV) (m : Bool) (v : Var) (e : Row) (hpos : m = true → cellVal d (e v) ≠ ⊥) :
    Law (sampleCell d m v) {w | m = true ∧ w = v} e fun z =>
      if m then ENNReal.ofReal (expL (cellVal d (z v)) / expL (cellVal d (e v))) else 1 := by
  intro y z hy hz hzy
  unfold sampleCell
  cases m with
  | false =>
    have : z = y := funext fun w => hzy w (by simp)
    subst this
    simp [prob, E]
  | true =>
    have hev : y v = e v := hy v ⟨rfl, rfl⟩
    simp only [if_true, Bool.true_and]
    split
    · rename_i hn
      rw [Option.isNone_iff_eq_none] at hn
      rw [← hev, hn]
      obtain ⟨t0, ht0⟩ : ∃ t, z v = some t := Option.ne_none_iff_exists'.1 (hz v ⟨rfl, rfl⟩)
      have huz : ∀ t, Function.update y v (some t) = z ↔ t = t0 := by
        intro t
        constructor
        · intro h
          have := congrFun h v
          rw [ht0] at this
          simpa using this
        · rintro rfl
          funext w
          by_cases hw : w = v
          · subst hw; simp [ht0]
          · rw [Function.update_of_ne hw]
            exact (hzy w fun hh => hw hh.1.2).symm
      simp only [prob, E, huz, ht0, cellVal, expL_zero, div_one]
      rw [tsum_eq_single t0]
      · simp
      · intro t ht; simp [ht]
    · rename_i hn
      have hyv : y v ≠ none := by simpa using hn
      have hzz : z = y := by
        funext w
        apply hzy
        rintro ⟨⟨_, rfl⟩, hh⟩
        exact hyv hh
      have hp := hpos rfl
      rw [hzz, hev, div_self (by rw [Ne, expL_eq_zero_iff]; exact hp)]
      simp [prob, E]

theorem pickAll_outcome {n : ℕ} {l : ℕ → ℕ → LogV} {F : ℕ} {g : ℕ → ℕ} (h : Outcome (pickAll n l F) g) :
    ∀ f < F, g f < n := by
  induction F generalizing g with
  | zero => simp
  | succ F ih =>
    rw [pickAll, outcome_bind] at h
    obtain ⟨g', h1, h2⟩ := h
    cases h2 with
    | choose hd hi h =>
      cases h
      intro f hf
      by_cases hfe : f = F
      · subst hfe; simpa using hi
      · rw [Function.update_of_ne hfe]; exact ih h1 f (by omega)

theorem pickAll_noFail {n : ℕ} {l : ℕ → ℕ → LogV} {F : ℕ} (h : ∀ f < F, ¬ Dead n (l f)) :
    ¬ Fails (pickAll n l F) := by
  induction F with
  | zero => intro h; cases h
  | succ F ih =>
    rw [pickAll]
    refine not_fails_bind (ih fun f hf => h f (by omega)) fun g _ hf => ?_
    cases hf with
    | dead hd => exact h F (by omega) hd
    | choose hi hf => cases hf

/-- features are chosen independently -/
theorem pickAll_E {n : ℕ} {l : ℕ → ℕ → LogV} (g : ℕ → ℕ → ENNReal) (F : ℕ) :
    (pickAll n l F).E (fun ch => ∏ f ∈ Finset.range F, g f (ch f)) =
      ∏ f ∈ Finset.range F, ∑ i ∈ Finset.range n, ENNReal.ofReal (softmax n (l f) i) * g f i := by
  induction F with
  | zero => simp [pickAll, E]
  | succ F ih =>
    rw [pickAll, E_bind, Finset.prod_range_succ, ← ih, ← E_mul]
    congr 1
    funext ch
    simp only [E]
    rw [Finset.mul_sum]
    refine Finset.sum_congr rfl fun i _ => ?_
    rw [Finset.prod_range_succ, Function.update_self]
    have : ∏ f ∈ Finset.range F, g f (Function.update ch F i f) = ∏ f ∈ Finset.range F, g f (ch f) :=
      Finset.prod_congr rfl fun f hf => by
        rw [Function.update_of_ne (by have := Finset.mem_range.1 hf; omega)]
    rw [this]; ring

/-- only choices of positive weight matter -/
theorem pickAll_congr {n : ℕ} {l : ℕ → ℕ → LogV} {F : ℕ} {h h' : (ℕ → ℕ) → ENNReal}
    (he : ∀ ch, (∀ f < F, ch f < n ∧ softmax n (l f) (ch f) ≠ 0) → h ch = h' ch) :
    (pickAll n l F).E h = (pickAll n l F).E h' := by
  induction F generalizing h h' with
  | zero => simp only [pickAll, E]; exact he _ (by simp)
  | succ F ih =>
    rw [pickAll, E_bind, E_bind]
    apply ih
    intro ch hch
    simp only [E]
    refine Finset.sum_congr rfl fun i hi => ?_
    by_cases hw : softmax n (l F) i = 0
    · simp [hw]
    · rw [he]
      intro f hf
      by_cases hfe : f = F
      · subst hfe
        simpa using ⟨Finset.mem_range.1 hi, hw⟩
      · rw [Function.update_of_ne hfe]; exact hch f (by omega)

/-! ### Routing -/

theorem sliceLoop_getElem? (ch : ℕ → ℕ) (mask : ℕ → Bool) (ks : List ℕ) (off i : ℕ) (hi : i < ks.length) :
    (sliceLoop ch mask off ks)[i]? =
      some (fun f => ch (off + (ks.take i).sum + f), fun f => mask (off + (ks.take i).sum + f)) := by
  induction ks generalizing off i with
  | nil => simp at hi
  | cons k ks ih =>
    cases i with
    | zero => simp [sliceLoop]
    | succ i =>
      simp only [sliceLoop, List.getElem?_cons_succ]
      rw [ih _ _ (by simpa using hi)]
      simp only [List.take_succ_cons, List.sum_cons, add_assoc]

theorem routeLoop_getElem? (ch : ℕ → ℕ) (mask : ℕ → Bool) (ks : List ℕ) (off i : ℕ) (hi : i < ks.length) :
    (routeLoop ch mask off ks)[i]? = some
      (fun f => if off + (ks.take i).sum ≤ ch f ∧ ch f < off + (ks.take i).sum + ks[i] then
          ch f - (off + (ks.take i).sum) else 0,
       fun f => decide (off + (ks.take i).sum ≤ ch f ∧ ch f < off + (ks.take i).sum + ks[i]) && mask f) := by
  induction ks generalizing off i with
  | nil => simp at hi
  | cons k ks ih =>
    cases i with
    | zero => simp [routeLoop]
    | succ i =>
      simp only [routeLoop, List.getElem?_cons_succ]
      rw [ih _ _ (by simpa using hi)]
      simp only [List.take_succ_cons, List.sum_cons, add_assoc, List.getElem_cons_succ]

theorem routeLoop_length (ch : ℕ → ℕ) (mask : ℕ → Bool) (ks : List ℕ) (off : ℕ) :
    (routeLoop ch mask off ks).length = ks.length := by
  induction ks generalizing off with
  | nil => rfl
  | cons k ks ih => simp [routeLoop, ih]


theorem take_sum_le (ks : List ℕ) {i j : ℕ} (hi : i < ks.length) (hij : i < j) :
    (ks.take i).sum + ks[i] ≤ (ks.take j).sum := by
  have h1 : (ks.take (i + 1)).sum = (ks.take i).sum + ks[i] := by
    rw [List.take_add_one, List.sum_append]; simp [hi]
  rw [← h1]
  obtain ⟨d, rfl⟩ : ∃ d, j = (i + 1) + d := ⟨j - (i + 1), by omega⟩
  rw [List.take_add (i := i + 1), List.sum_append]
  exact Nat.le_add_right _ _

theorem owner_unique {n : ℕ} (cs : Fin n → Circ) {i j : Fin n} {ch : ℕ}
    (hi : offC cs i ≤ ch ∧ ch < offC cs i + C (cs i)) (hj : offC cs j ≤ ch ∧ ch < offC cs j + C (cs j)) :
    i = j := by
  unfold offC at hi hj
  rcases lt_trichotomy i j with h | h | h
  · have := take_sum_le (List.ofFn fun k => C (cs k)) (i := i) (j := j) (by simp) h
    simp at this; omega
  · exact h
  · have := take_sum_le (List.ofFn fun k => C (cs k)) (i := j) (j := i) (by simp) h
    simp at this; omega

theorem prod_range_offsets {M : Type*} [CommMonoid M] (ks : List ℕ) (G : ℕ → M) :
    ∏ f ∈ Finset.range ks.sum, G f =
      ∏ i : Fin ks.length, ∏ f ∈ Finset.range ks[i], G ((ks.take i).sum + f) := by
  induction ks generalizing G with
  | nil => simp
  | cons k ks ih =>
    rw [List.sum_cons, Finset.prod_range_add, ih]
    show _ = ∏ i : Fin (ks.length + 1), _
    rw [Fin.prod_univ_succ]
    congr 1
    · simp
    · refine Finset.prod_congr rfl fun i _ => ?_
      simp [add_assoc]

theorem prod_cat1 {M : Type*} [CommMonoid M] {n : ℕ} (cs : Fin n → Circ) (G : ℕ → M) :
    ∏ f ∈ Finset.range (F (cat1 n cs)), G f = ∏ i : Fin n, ∏ f ∈ Finset.range (F (cs i)), G (offF cs i + f) := by
  rw [F, prod_range_offsets]
  unfold offF
  refine Fintype.prod_equiv (finCongr (by simp)) _ _ fun i => ?_
  simp
  rfl

/-! ### Circuits -/

/-- Variables of the active features. -/
def act (c : Circ) (mask : ℕ → Bool) : Set Var := {v | ∃ f < F c, mask f = true ∧ v ∈ fscope c f}

/-- `r` is a valid repetition index of every module (else `_sample` raises). -/
def RepS (r : ℕ) : Circ → Prop
  | leaf _ _ R _ => r < R
  | cat1 _ cs => ∀ i, RepS r (cs i)
  | cat2 _ cs => ∀ i, RepS r (cs i)
  | prod c => RepS r c
  | sum c _ R _ => RepS r c ∧ r < R

/-- Every leaf has at least one channel. -/
def PosCh : Circ → Prop
  | leaf _ C _ _ => 1 ≤ C
  | cat1 _ cs => ∀ i, PosCh (cs i)
  | cat2 _ cs => ∀ i, PosCh (cs i)
  | prod c => PosCh c
  | sum c _ _ _ => PosCh c

/-- No Sum unit has probability zero on row `e`. -/
def Live (e : Row) (r : ℕ) : Circ → Prop
  | leaf _ _ _ _ => True
  | cat1 _ cs => ∀ i, Live e r (cs i)
  | cat2 _ cs => ∀ i, Live e r (cs i)
  | prod c => Live e r c
  | sum c Co R θ => Live e r c ∧ ∀ f < F c, ∀ co < Co, featAt (den (sum c Co R θ)) f e r co ≠ ⊥

/-- `Live` when likelihoods are cached. -/
def EvOk (ev : Option Row) (r : ℕ) (c : Circ) : Prop := ∀ e, ev = some e → Live e r c

theorem RepS.repIn {r : ℕ} {c : Circ} (h : RepS r c) : RepIn r c := by
  induction c with
  | leaf q C R d => exact .inr h
  | cat1 n cs ih => exact fun i => ih i (h i)
  | cat2 n cs ih => exact fun i => ih i (h i)
  | prod c ih => exact ih h
  | sum c Co R θ ih => exact ⟨ih h.1, .inr h.2⟩

theorem bc_of_lt {R r : ℕ} (h : r < R) : bc R r = r := by
  unfold bc; split <;> omega

theorem n_pos1 {n : ℕ} {cs : Fin n → Circ} (h : check1 (List.ofFn cs) = .ok ()) : 0 < n := by
  obtain ⟨-, -, hne, -⟩ := check1_ok h
  rcases Nat.eq_zero_or_pos n with rfl | h
  · simp at hne
  · exact h

theorem n_pos2 {n : ℕ} {cs : Fin n → Circ} (h : check2 (List.ofFn cs) = .ok ()) : 0 < n := by
  obtain ⟨-, -, hne⟩ := check2_ok h
  rcases Nat.eq_zero_or_pos n with rfl | h
  · simp at hne
  · exact h

theorem offC_lt {n : ℕ} {cs : Fin n → Circ} (i : Fin n) {k : ℕ} (hk : k < C (cs i)) :
    offC cs i + k < C (cat2 n cs) := by
  have h1 : i.val < (List.ofFn fun j => C (cs j)).length := by simp
  have h2 : (List.ofFn fun j => C (cs j)).sum =
      ((List.ofFn fun j => C (cs j)).take i).sum + ((List.ofFn fun j => C (cs j)).drop i).sum := by
    rw [← List.sum_append, List.take_append_drop]
  rw [List.drop_eq_getElem_cons h1] at h2
  simp only [C, offC]
  rw [h2]
  simp
  omega

theorem posC {c : Circ} (h : Accepted c) (hp : PosCh c) : 1 ≤ C c := by
  induction c with
  | leaf q C R d => exact hp
  | cat1 n cs ih => rw [← cat1_C h.2 ⟨0, n_pos1 h.2⟩]; exact ih _ (h.1 _) (hp _)
  | cat2 n cs ih =>
    have := offC_lt (cs := cs) ⟨0, n_pos2 h.2⟩ (k := 0) (ih _ (h.1 _) (hp _))
    omega
  | prod c ih => exact ih h hp
  | sum c Co R θ ih => exact h.2.1

theorem repS_lt {r : ℕ} {c : Circ} (h : Accepted c) (hr : RepS r c) : r < R c := by
  induction c with
  | leaf q C R d => exact hr
  | cat1 n cs ih =>
    simp only [R, n_pos1 h.2, dif_pos]; exact ih _ (h.1 _) (hr _)
  | cat2 n cs ih =>
    simp only [R, n_pos2 h.2, dif_pos]; exact ih _ (h.1 _) (hr _)
  | prod c ih => exact ih h hr
  | sum c Co R θ ih => exact hr.2

theorem validCtx_of {F C R : ℕ} {ch : ℕ → ℕ} {mask : ℕ → Bool} {r : ℕ} (h1 : 1 ≤ C) (h2 : ∀ f < F, ch f < C)
    (h3 : r < R) : validCtx F C R ch mask r = true := by
  unfold validCtx
  simp only [Bool.and_eq_true, decide_eq_true_eq, List.all_eq_true, List.mem_range, Bool.or_eq_true,
    Bool.not_eq_true']
  exact ⟨⟨h1, fun f hf => .inr (h2 f hf)⟩, h3⟩

/-- child contexts of Cat(dim=1) -/
theorem slice_getD {n : ℕ} (cs : Fin n → Circ) (ch : ℕ → ℕ) (mask : ℕ → Bool) (i : Fin n) :
    (sliceLoop ch mask 0 (List.ofFn fun i : Fin n => F (cs i))).getD i (fun _ => 0, fun _ => false) =
      (fun f => ch (offF cs i + f), fun f => mask (offF cs i + f)) := by
  rw [List.getD_eq_getElem?_getD, sliceLoop_getElem? _ _ _ _ _ (by simp)]
  simp [offF]

/-- child contexts of Cat(dim=2) -/
theorem route_getD {n : ℕ} (cs : Fin n → Circ) (ch : ℕ → ℕ) (mask : ℕ → Bool) (i : Fin n) :
    (routeLoop ch mask 0 (List.ofFn fun i : Fin n => C (cs i))).getD i (fun _ => 0, fun _ => false) =
      (fun f => if offC cs i ≤ ch f ∧ ch f < offC cs i + C (cs i) then ch f - offC cs i else 0,
       fun f => decide (offC cs i ≤ ch f ∧ ch f < offC cs i + C (cs i)) && mask f) := by
  rw [List.getD_eq_getElem?_getD, routeLoop_getElem? _ _ _ _ _ (by simp)]
  simp only [offC, Option.getD_some, List.getElem_ofFn, zero_add]
  rfl

theorem act_cat1 {n : ℕ} (cs : Fin n → Circ) (mask : ℕ → Bool) (v : Var) :
    v ∈ act (cat1 n cs) mask ↔ ∃ i, v ∈ act (cs i) fun f => mask (offF cs i + f) := by
  constructor
  · rintro ⟨f, hf, hm, hv⟩
    obtain ⟨i, j, hj, rfl⟩ := exists_cat1_index hf
    exact ⟨i, j, hj, hm, by rwa [fscope_cat1 i hj] at hv⟩
  · rintro ⟨i, j, hj, hm, hv⟩
    refine ⟨offF cs i + j, ?_, hm, by rwa [fscope_cat1 i hj]⟩
    have h1 : i.val < (List.ofFn fun j => F (cs j)).length := by simp
    have h2 : (List.ofFn fun j => F (cs j)).sum =
        ((List.ofFn fun j => F (cs j)).take i).sum + ((List.ofFn fun j => F (cs j)).drop i).sum := by
      rw [← List.sum_append, List.take_append_drop]
    rw [List.drop_eq_getElem_cons h1] at h2
    simp only [F, offF]
    rw [h2]
    simp
    omega

theorem act_cat2 {n : ℕ} {cs : Fin n → Circ} (h : Accepted (cat2 n cs)) (hal : Aligned (cat2 n cs)) {ch : ℕ → ℕ}
    (hch : ∀ f < F (cat2 n cs), ch f < C (cat2 n cs)) (mask : ℕ → Bool) (v : Var) :
    v ∈ act (cat2 n cs) mask ↔
      ∃ i, v ∈ act (cs i) fun f => decide (offC cs i ≤ ch f ∧ ch f < offC cs i + C (cs i)) && mask f := by
  constructor
  · rintro ⟨f, hf, hm, hv⟩
    obtain ⟨i, k, hk, he⟩ := exists_cat2_index (hch f hf)
    refine ⟨i, f, by rwa [cat2_F h.2 i], ?_, by rwa [fscope_cat2 hal.2 i] at hv⟩
    simp only [hm, Bool.and_true, decide_eq_true_eq]
    omega
  · rintro ⟨i, f, hf, hm, hv⟩
    simp only [Bool.and_eq_true] at hm
    exact ⟨f, by rwa [← cat2_F h.2 i], hm.2, by rwa [fscope_cat2 hal.2 i]⟩

theorem act_prod (c : Circ) (mask : ℕ → Bool) (v : Var) :
    v ∈ act (prod c) mask ↔ v ∈ act c fun _ => mask 0 := by
  constructor
  · rintro ⟨f, hf, hm, hv⟩
    obtain rfl : f = 0 := by simp only [F] at hf; omega
    obtain ⟨g, hg, hv⟩ := (mem_fscope_prod c v).1 hv
    exact ⟨g, hg, hm, hv⟩
  · rintro ⟨g, hg, hm, hv⟩
    exact ⟨0, by simp [F], hm, (mem_fscope_prod c v).2 ⟨g, hg, hv⟩⟩

theorem act_sum (c : Circ) (Co R : ℕ) (θ) (mask : ℕ → Bool) : act (sum c Co R θ) mask = act c mask := by
  ext v
  simp only [act, fscope_sum, Set.mem_ofPred_eq, F]

theorem act_leaf (q : List Var) (C R : ℕ) (d) (mask : ℕ → Bool) (v : Var) :
    v ∈ act (leaf q C R d) mask ↔ ∃ i : Fin q.length, mask i = true ∧ v = q[i] := by
  constructor
  · rintro ⟨f, hf, hm, hv⟩
    replace hf : f < q.length := hf
    rw [fscope_leaf (v := q[f]) (by simp [hf])] at hv
    exact ⟨⟨f, hf⟩, hm, by simpa using hv⟩
  · rintro ⟨i, hm, rfl⟩
    refine ⟨i, i.2, hm, ?_⟩
    rw [fscope_leaf (v := q[i]) (by simp)]
    simp

theorem seqAll_inactive (l : List (Row → Prog Row)) (y : Row) (h : ∀ s ∈ l, s y = .ret y) : seqAll l y = .ret y := by
  induction l with
  | nil => rfl
  | cons s l ih => rw [seqAll, h s (by simp)]; show seqAll l y = _; exact ih fun s hs => h s (by simp [hs])

/-- a leaf samples cell by cell -/
theorem sample_leaf {ev : Option Row} {r : ℕ} {q : List Var} {C R : ℕ} {d} {ch : ℕ → ℕ} {mask : ℕ → Bool}
    (h1 : 1 ≤ C) (h2 : ∀ f < q.length, ch f < C) (h3 : r < R) (y : Row) :
    sample ev r (leaf q C R d) ch mask y =
      seqAll (List.ofFn fun i : Fin q.length => sampleCell (d i (ch i) r) (mask i) q[i]) y := by
  simp only [sample, validCtx_of h1 h2 h3, Bool.not_true, Bool.false_eq_true, if_false]
  have hall : ((List.range q.length).all fun f => decide (ch f < C)) = true := by simpa using h2
  simp only [hall, Bool.not_true, Bool.false_eq_true, if_false]
  have hidx : (q.mapIdx fun i v => sampleCell (d i (ch i) r) (mask i) v) =
      List.ofFn fun i : Fin q.length => sampleCell (d i (ch i) r) (mask i) q[i] := by
    apply List.ext_getElem <;> simp
  rw [hidx]
  split
  · rename_i hin
    rw [seqAll_inactive]
    intro s hs
    rw [List.mem_ofFn] at hs
    obtain ⟨i, rfl⟩ := hs
    rw [List.all_eq_true] at hin
    have := hin (q[i], i.val) (by rw [List.mem_zipIdx_iff_getElem?]; simp)
    simp only [Bool.not_eq_true'] at this
    simp only [sampleCell, this, Bool.false_eq_true, if_false]
  · rfl

theorem sample_cat1 {ev : Option Row} {r : ℕ} {n : ℕ} {cs : Fin n → Circ} (h : Accepted (cat1 n cs))
    (hp : PosCh (cat1 n cs)) (hr : RepS r (cat1 n cs)) {ch : ℕ → ℕ} {mask : ℕ → Bool}
    (hch : ∀ f < F (cat1 n cs), ch f < C (cat1 n cs)) (y : Row) :
    sample ev r (cat1 n cs) ch mask y = seqAll (List.ofFn fun i : Fin n =>
      sample ev r (cs i) (fun f => ch (offF cs i + f)) (fun f => mask (offF cs i + f))) y := by
  rw [sample]
  simp only [validCtx_of (posC h hp) hch (repS_lt h hr), Bool.not_true, Bool.false_eq_true, if_false, slice_getD]

theorem sample_cat2 {ev : Option Row} {r : ℕ} {n : ℕ} {cs : Fin n → Circ} (h : Accepted (cat2 n cs))
    (hp : PosCh (cat2 n cs)) (hr : RepS r (cat2 n cs)) {ch : ℕ → ℕ} {mask : ℕ → Bool}
    (hch : ∀ f < F (cat2 n cs), ch f < C (cat2 n cs)) (y : Row) :
    sample ev r (cat2 n cs) ch mask y = seqAll (List.ofFn fun i : Fin n =>
      sample ev r (cs i) (fun f => if offC cs i ≤ ch f ∧ ch f < offC cs i + C (cs i) then ch f - offC cs i else 0)
        (fun f => decide (offC cs i ≤ ch f ∧ ch f < offC cs i + C (cs i)) && mask f)) y := by
  have hroute : routeOffsets (F (cat2 n cs)) (List.ofFn fun i : Fin n => C (cs i)) ch mask =
      .ok (routeLoop ch mask 0 (List.ofFn fun i : Fin n => C (cs i))) := by
    unfold routeOffsets
    rw [if_neg, if_neg]
    · simp only [List.any_eq_true, List.mem_range, Bool.and_eq_true, decide_eq_true_eq, not_exists, not_and]
      intro f hf _
      have := hch f hf
      simp only [C] at this
      omega
    · simp only [List.any_eq_true, List.mem_ofFn, decide_eq_true_eq, not_exists, not_and]
      rintro _ ⟨i, rfl⟩
      have := posC (h.1 i) (hp i)
      omega
  rw [sample]
  simp only [validCtx_of (posC h hp) hch (repS_lt h hr), Bool.not_true, Bool.false_eq_true, if_false, hroute,
    route_getD]

theorem sample_prod {ev : Option Row} {r : ℕ} {c : Circ} (h : Accepted c) (hp : PosCh c) (hr : RepS r c)
    {ch : ℕ → ℕ} {mask : ℕ → Bool} (hch : ch 0 < C c) (y : Row) :
    sample ev r (prod c) ch mask y = sample ev r c (fun _ => ch 0) (fun _ => mask 0) y := by
  rw [sample]
  simp only [validCtx_of (F := 1) (posC h hp) (fun f hf => by
    obtain rfl : f = 0 := by omega
    exact hch) (repS_lt h hr), Bool.not_true, Bool.false_eq_true, if_false]

theorem sample_sum {ev : Option Row} {r : ℕ} {c : Circ} {Co R : ℕ} {θ} (h : Accepted (sum c Co R θ))
    (hr : RepS r (sum c Co R θ)) {ch : ℕ → ℕ} {mask : ℕ → Bool} (hch : ∀ f < F c, ch f < Co) (y : Row) :
    sample ev r (sum c Co R θ) ch mask y =
      (pickAll (C c) (sumLogits ev r c θ ch) (F c)).bind fun ch' => sample ev r c ch' mask y := by
  have hall : ((List.range (F c)).all fun f => decide (ch f < Co)) = true := by simpa using hch
  simp only [sample, validCtx_of h.2.1 hch hr.2, hall, Bool.not_true, Bool.false_eq_true, if_false]

theorem sumLogits_alive {ev : Option Row} {r : ℕ} {c : Circ} {Co R : ℕ} {θ} (h : Accepted (sum c Co R θ))
    (hr : r < R) (hev : EvOk ev r (sum c Co R θ)) {ch : ℕ → ℕ} {f : ℕ} (hf : f < F c) (hch : ch f < Co) :
    ¬ Dead (C c) (sumLogits ev r c θ ch f) := by
  intro hd
  cases ev with
  | none =>
    obtain ⟨ci, hci, hne⟩ := h.2.2 f hf (ch f) hch r hr
    exact hne (hd ci hci)
  | some e =>
    have hl := (hev e rfl).2 f hf (ch f) hch
    rw [Ne, ← expL_eq_zero_iff, expL_featAt_sum hf, bc_of_lt hr] at hl
    apply hl
    refine Finset.sum_eq_zero fun ci hci => ?_
    have := hd ci (Finset.mem_range.1 hci)
    simp only [sumLogits] at this
    rw [← expL_eq_zero_iff, expL_logSoftmax, div_eq_zero_iff] at this
    have h0 : expL (θ f ci (ch f) r + featAt (den c) f e r ci) = 0 := by
      rcases this with h0 | h0
      · exact h0
      · exact (Finset.sum_eq_zero_iff_of_nonneg fun i _ => expL_nonneg _).1 h0 ci hci
    rw [expL_add, mul_eq_zero] at h0
    rcases h0 with h0 | h0
    · unfold weight; rw [softmax_eq, h0]; simp
    · rw [h0, mul_zero]

theorem sample_ok {ev : Option Row} {r : ℕ} {c : Circ} (h : Accepted c) (hal : Aligned c) (hp : PosCh c)
    (hr : RepS r c) (hev : EvOk ev r c) : ∀ (ch : ℕ → ℕ) (mask : ℕ → Bool), (∀ f < F c, ch f < C c) →
      NoFail (sample ev r c ch mask) ∧ Frames (sample ev r c ch mask) (act c mask) := by
  induction c with
  | leaf q C R d =>
    intro ch mask hch
    have e : sample ev r (leaf q C R d) ch mask =
        seqAll (List.ofFn fun i : Fin q.length => sampleCell (d i (ch i) r) (mask i) q[i]) :=
      funext fun y => sample_leaf hp hch hr y
    rw [e]
    constructor
    · apply seqAll_noFail
      intro s hs
      rw [List.mem_ofFn] at hs
      obtain ⟨i, rfl⟩ := hs
      exact sampleCell_noFail _ _ _
    · have hset : act (leaf q C R d) mask = {v | ∃ A ∈ List.ofFn fun i : Fin q.length =>
          ({w | mask i = true ∧ w = q[i]} : Set Var), v ∈ A} := by
        ext v
        rw [act_leaf]
        simp [List.mem_ofFn]
      rw [hset]
      apply seqAll_frames
      rw [List.forall₂_iff_get]
      refine ⟨by simp, fun i h1 h2 => ?_⟩
      simpa using sampleCell_frames _ _ _
  | cat1 n cs ih =>
    intro ch mask hch
    have e : sample ev r (cat1 n cs) ch mask = seqAll (List.ofFn fun i : Fin n =>
        sample ev r (cs i) (fun f => ch (offF cs i + f)) (fun f => mask (offF cs i + f))) :=
      funext fun y => sample_cat1 h hp hr hch y
    have hchild : ∀ i, ∀ f < F (cs i), ch (offF cs i + f) < C (cs i) := by
      intro i f hf
      rw [cat1_C h.2 i]
      exact hch _ (by
        obtain ⟨v, hv⟩ : ∃ v : ℕ, True := ⟨0, trivial⟩
        have h1 : i.val < (List.ofFn fun j => F (cs j)).length := by simp
        have h2 : (List.ofFn fun j => F (cs j)).sum =
            ((List.ofFn fun j => F (cs j)).take i).sum + ((List.ofFn fun j => F (cs j)).drop i).sum := by
          rw [← List.sum_append, List.take_append_drop]
        rw [List.drop_eq_getElem_cons h1] at h2
        simp only [F, offF]
        rw [h2]
        simp
        omega)
    have hih := fun i => ih i (h.1 i) (hal i) (hp i) (hr i) (fun e he => hev e he i)
      (fun f => ch (offF cs i + f)) (fun f => mask (offF cs i + f)) (hchild i)
    rw [e]
    constructor
    · apply seqAll_noFail
      intro s hs
      rw [List.mem_ofFn] at hs
      obtain ⟨i, rfl⟩ := hs
      exact (hih i).1
    · have hset : act (cat1 n cs) mask = {v | ∃ A ∈ List.ofFn fun i : Fin n =>
          act (cs i) (fun f => mask (offF cs i + f)), v ∈ A} := by
        ext v
        rw [act_cat1]
        simp [List.mem_ofFn]
      rw [hset]
      apply seqAll_frames
      rw [List.forall₂_iff_get]
      refine ⟨by simp, fun i h1 h2 => ?_⟩
      simpa using (hih ⟨i, by simpa using h1⟩).2
  | cat2 n cs ih =>
    intro ch mask hch
    have e : sample ev r (cat2 n cs) ch mask = _ := funext fun y => sample_cat2 h hp hr hch y
    have hchild : ∀ i, ∀ f < F (cs i),
        (if offC cs i ≤ ch f ∧ ch f < offC cs i + C (cs i) then ch f - offC cs i else 0) < C (cs i) := by
      intro i f hf
      have := posC (h.1 i) (hp i)
      split <;> omega
    have hih := fun i => ih i (h.1 i) (hal.1 i) (hp i) (hr i) (fun e he => hev e he i) _
      (fun f => decide (offC cs i ≤ ch f ∧ ch f < offC cs i + C (cs i)) && mask f) (hchild i)
    rw [e]
    constructor
    · apply seqAll_noFail
      intro s hs
      rw [List.mem_ofFn] at hs
      obtain ⟨i, rfl⟩ := hs
      exact (hih i).1
    · have hset : act (cat2 n cs) mask = {v | ∃ A ∈ List.ofFn fun i : Fin n =>
          act (cs i) (fun f => decide (offC cs i ≤ ch f ∧ ch f < offC cs i + C (cs i)) && mask f), v ∈ A} := by
        ext v
        rw [act_cat2 h hal hch]
        simp only [List.mem_ofFn, Set.mem_ofPred_eq]
        constructor
        · rintro ⟨i, hi⟩; exact ⟨_, ⟨i, rfl⟩, hi⟩
        · rintro ⟨_, ⟨i, rfl⟩, hi⟩; exact ⟨i, hi⟩
      rw [hset]
      apply seqAll_frames
      rw [List.forall₂_iff_get]
      refine ⟨by simp, fun i h1 h2 => ?_⟩
      simpa using (hih ⟨i, by simpa using h1⟩).2
  | prod c ih =>
    intro ch mask hch
    replace h : Accepted c := h
    replace hp : PosCh c := hp
    replace hr : RepS r c := hr
    have h0 : ch 0 < C c := hch 0 (by simp [F])
    have e : sample ev r (prod c) ch mask = sample ev r c (fun _ => ch 0) (fun _ => mask 0) :=
      funext fun y => sample_prod h hp hr h0 y
    have hset : act (prod c) mask = act c fun _ => mask 0 := Set.ext fun v => act_prod c mask v
    rw [e, hset]
    exact ih h hal hp hr hev _ _ fun f _ => h0
  | sum c Co R θ ih =>
    intro ch mask hch
    replace hch : ∀ f < F c, ch f < Co := hch
    have e : sample ev r (sum c Co R θ) ch mask = _ := funext fun y => sample_sum h hr hch y
    have hih := fun ch' hch' => ih h.1 hal hp hr.1 (fun e he => (hev e he).1) ch' mask hch'
    rw [e, act_sum]
    constructor
    · intro y
      refine not_fails_bind (pickAll_noFail fun f hf => sumLogits_alive h hr.2 hev hf (hch f hf)) fun ch' ho => ?_
      exact (hih ch' (pickAll_outcome ho)).1 y
    · intro y z ho
      rw [outcome_bind] at ho
      obtain ⟨ch', h1, h2⟩ := ho
      exact (hih ch' (pickAll_outcome h1)).2 y z h2

end Circ
end Verif

import Verif.ListProd
import Verif.RatSample

/-!
Helper lemmas for C69: the value of products over lists of modules is a family of normalised densities.
-/

open MeasureTheory

namespace Verif.LP

open Finset Verif.Circ
open Verif.Conv (Fam)

variable {μ : Var → Measure ℝ}

/-! ### Generic combinations of families -/

/-- number of entries of the blocks before block `i` -/
def off {n : ℕ} (k : Fin n → ℕ) (i : ℕ) : ℕ := ((List.ofFn k).take i).sum

theorem blk_offset' {α : Type} (d : α) (l : List (ℕ × (ℕ → α))) (i k : ℕ) (hi : i < l.length) (hk : k < (l[i]).1) :
    Mod.blk d l (((l.map Prod.fst).take i).sum + k) = (l[i]).2 k := by
  induction l generalizing i with
  | nil => simp at hi
  | cons a l ih =>
    obtain ⟨n, g⟩ := a
    cases i with
    | zero => simp at hk ⊢; simp [Mod.blk, hk]
    | succ i =>
      simp at hi hk ⊢
      rw [Mod.blk, if_neg (by omega), ← ih i hi hk]; congr 1; omega

theorem blk_offset {α : Type} (d : α) {n : ℕ} (k : Fin n → ℕ) (g : Fin n → ℕ → α) (i : Fin n) {j : ℕ} (hj : j < k i) :
    Mod.blk d (List.ofFn fun i => (k i, g i)) (off k i + j) = g i j := by
  have key := blk_offset' d (List.ofFn fun i => (k i, g i)) i j (by simp) (by simpa using hj)
  simp only [List.map_ofFn, Function.comp_def, List.getElem_ofFn, Fin.eta] at key
  exact key

theorem catCh_off {n : ℕ} (k : Fin n → ℕ) (g : Fin n → ℕ → LogV) (i : Fin n) {j : ℕ} (hj : j < k i) :
    catCh (List.ofFn fun i => (k i, g i)) (off k i + j) = g i j := by
  have key := catCh_offset (List.ofFn fun i => (k i, g i)) i j (by simp) (by simpa using hj)
  simp only [List.map_ofFn, Function.comp_def, List.getElem_ofFn, Fin.eta] at key
  exact key

theorem exists_off {n : ℕ} {k : Fin n → ℕ} {f : ℕ} (hf : f < (List.ofFn k).sum) :
    ∃ (i : Fin n) (j : ℕ), j < k i ∧ f = off k i + j := by
  obtain ⟨i, j, hi, hj, he⟩ := exists_catCh_index (List.ofFn k) f hf
  simp at hi hj
  exact ⟨⟨i, hi⟩, j, hj, he⟩

theorem off_lt {n : ℕ} (k : Fin n → ℕ) (i : Fin n) {j : ℕ} (hj : j < k i) : off k i + j < (List.ofFn k).sum := by
  have h2 : (List.ofFn k).sum = ((List.ofFn k).take i).sum + ((List.ofFn k).drop i).sum := by
    rw [← List.sum_append, List.take_append_drop]
  have h3 : ((List.ofFn k).drop i).sum = k i + ((List.ofFn k).drop (i + 1)).sum := by
    rw [List.drop_eq_getElem_cons (by simp)]
    simp
  unfold off
  omega

/-- `Cat` along the features. -/
theorem Fam.concat {n C : ℕ} {k : Fin n → ℕ} {s : Fin n → ℕ → Finset Var} {u : Fin n → ℕ → Row → ℕ → LogV}
    (h : ∀ i, Fam μ (k i) C (s i) (u i)) (hd : ∀ i j, i ≠ j → ∀ f < k i, ∀ g < k j, Disjoint (s i f) (s j g)) :
    Fam μ (List.ofFn k).sum C (Mod.blk ∅ (List.ofFn fun i => (k i, s i)))
      (fun f x ch => Mod.blk ⊥ (List.ofFn fun i => (k i, fun q => u i q x ch)) f) := by
  refine ⟨?_, ?_, ?_, ?_, ?_, ?_⟩
  · intro f hf g hg hne
    obtain ⟨i, f', hf', rfl⟩ := exists_off hf
    obtain ⟨j, g', hg', rfl⟩ := exists_off hg
    rw [blk_offset ∅ k s i hf', blk_offset ∅ k s j hg']
    by_cases hij : i = j
    · subst hij
      exact (h i).disj f' hf' g' hg' fun e => hne (by rw [e])
    · exact hd i j hij f' hf' g' hg'
  all_goals
    intro f hf ch hch
    obtain ⟨i, f', hf', rfl⟩ := exists_off hf
    have e : ∀ x, Mod.blk ⊥ (List.ofFn fun i => (k i, fun q => u i q x ch)) (off k i + f') = u i f' x ch :=
      fun x => blk_offset ⊥ k (fun i q => u i q x ch) i hf'
    simp only [blk_offset ∅ k s i hf', e]
  · exact (h i).loc f' hf' ch hch
  · exact fun {Ω} _ Φ hΦ => (h i).meas f' hf' ch hch Φ hΦ
  · exact (h i).miss f' hf' ch hch
  · exact (h i).int f' hf' ch hch
  · exact (h i).mono f' hf' ch hch

/-- `Cat` along the channels. -/
theorem Fam.stack {n F : ℕ} {k : Fin n → ℕ} {s : ℕ → Finset Var} {u : Fin n → ℕ → Row → ℕ → LogV}
    (h : ∀ i, Fam μ F (k i) s (u i)) (hn : 0 < n) :
    Fam μ F (List.ofFn k).sum s (fun f x ch => catCh (List.ofFn fun i => (k i, fun q => u i f x q)) ch) := by
  refine ⟨(h ⟨0, hn⟩).disj, ?_, ?_, ?_, ?_, ?_⟩
  all_goals
    intro f hf ch hch
    obtain ⟨i, q, hq, rfl⟩ := exists_off hch
    have e : ∀ x, catCh (List.ofFn fun i => (k i, fun q => u i f x q)) (off k i + q) = u i f x q :=
      fun x => catCh_off k (fun i q => u i f x q) i hq
    simp only [e]
  · exact (h i).loc f hf q hq
  · exact fun {Ω} _ Φ hΦ => (h i).meas f hf q hq Φ hΦ
  · exact (h i).miss f hf q hq
  · exact (h i).int f hf q hq
  · exact (h i).mono f hf q hq

/-- A product of modules with the same number of features; output channel `ch` reads channel `κ ch i` of input `i`. -/
theorem Fam.mul {n F C' : ℕ} {c : Fin n → ℕ} {s : Fin n → ℕ → Finset Var} {u : Fin n → ℕ → Row → ℕ → LogV}
    {s' : ℕ → Finset Var} {u' : ℕ → Row → ℕ → LogV} {κ : ℕ → Fin n → ℕ} (h : ∀ i, Fam μ F (c i) (s i) (u i))
    (hd : ∀ i j, i ≠ j → ∀ f < F, ∀ g < F, Disjoint (s i f) (s j g)) (hκ : ∀ ch < C', ∀ i, κ ch i < c i)
    (hs : ∀ f < F, ∀ v, v ∈ s' f ↔ ∃ i, v ∈ s i f)
    (he : ∀ f < F, ∀ ch < C', ∀ x, u' f x ch = ∑ i, u i f x (κ ch i)) : Fam μ F C' s' u' := by
  have hE : ∀ f < F, ∀ ch < C', ∀ x, expL (u' f x ch) = ∏ i, expL (u i f x (κ ch i)) := by
    intro f hf ch hch x
    rw [he f hf ch hch, expL_sum]
  refine ⟨?_, ?_, ?_, ?_, ?_, ?_⟩
  · intro f hf g hg hne
    rw [Finset.disjoint_left]
    intro v hv hv'
    obtain ⟨i, hi⟩ := (hs f hf v).1 hv
    obtain ⟨j, hj⟩ := (hs g hg v).1 hv'
    by_cases hij : i = j
    · subst hij; exact Finset.disjoint_left.1 ((h i).disj f hf g hg hne) hi hj
    · exact Finset.disjoint_left.1 (hd i j hij f hf g hg) hi hj
  · intro f hf ch hch x y hxy
    rw [he f hf ch hch, he f hf ch hch]
    exact sum_congr rfl fun i _ => (h i).loc f hf _ (hκ ch hch i) x y fun v hv => hxy v ((hs f hf v).2 ⟨i, hv⟩)
  · intro f hf ch hch Ω _ Φ hΦ
    simp only [hE f hf ch hch]
    exact Finset.measurable_prod _ fun i _ => (h i).meas f hf _ (hκ ch hch i) Φ hΦ
  · intro f hf ch hch x hx
    rw [hE f hf ch hch]
    exact prod_eq_one fun i _ => (h i).miss f hf _ (hκ ch hch i) x fun v hv => hx v ((hs f hf v).2 ⟨i, hv⟩)
  · intro f hf ch hch v hv x
    obtain ⟨j, hj⟩ := (hs f hf v).1 hv
    have hother : ∀ q : Option ℝ, ∏ i ∈ univ.erase j, expL (u i f (Function.update x v q) (κ ch i)) =
        ∏ i ∈ univ.erase j, expL (u i f x (κ ch i)) := by
      intro q
      refine prod_congr rfl fun i hi => ?_
      congr 1
      refine (h i).loc f hf _ (hκ ch hch i) _ _ fun w hw => ?_
      have : w ≠ v := by
        rintro rfl
        exact Finset.disjoint_left.1 (hd i j (mem_erase.1 hi).1 f hf f hf) hw hj
      simp [this]
    simp only [hE f hf ch hch, ← mul_prod_erase _ _ (mem_univ j), hother, ENNReal.ofReal_mul (expL_nonneg _)]
    have hm : Measurable fun t : ℝ => ENNReal.ofReal (expL (u j f (Function.update x v (some t)) (κ ch j))) :=
      ENNReal.measurable_ofReal.comp ((h j).meas f hf _ (hκ ch hch j) _ (measRow_update x v))
    rw [lintegral_mul_const _ hm, (h j).int f hf _ (hκ ch hch j) v hj x]
  · intro f hf ch hch e z hez
    rw [hE f hf ch hch, hE f hf ch hch, prod_eq_zero_iff, prod_eq_zero_iff]
    rintro ⟨i, hi, h0⟩
    exact ⟨i, hi, (h i).mono f hf _ (hκ ch hch i) e z hez h0⟩

namespace Mod

/-! ### Specification -/

/-- The variables of feature `f`. -/
noncomputable def fs : Mod → ℕ → Finset Var
  | base c => Circ.fscope c
  | cat1 n cs => blk ∅ (List.ofFn fun i : Fin n => (F (cs i), fs (cs i)))
  | cat2 n cs => if h : 0 < n then fs (cs ⟨0, h⟩) else fun _ => ∅
  | fold m => fun _ => (range (F m)).biUnion (fs m)
  | mul _ n cs => fun f => (univ : Finset (Fin n)).biUnion fun i => fs (cs i) f
  | sum m _ _ _ => fs m

/-- A module whose constructors were all called with accepted arguments, whose leaves are normalised densities, whose
channel-concatenated inputs agree feature by feature on their scopes, and whose products have inputs with the same
number of features. -/
def Good (μ : Var → Measure ℝ) : Mod → Prop
  | base c => Accepted c ∧ Aligned c ∧ LeafOk μ c
  | cat1 _ cs => (∀ i, Good μ (cs i)) ∧ check1 (List.ofFn cs) = .ok ()
  | cat2 n cs => (∀ i, Good μ (cs i)) ∧ check2 (List.ofFn cs) = .ok () ∧
      ∀ i j : Fin n, ∀ f < F (cs i), fs (cs i) f = fs (cs j) f
  | fold m => Good μ m
  | mul outer n cs => (∀ i, Good μ (cs i)) ∧ checkMul outer (List.ofFn cs) = .ok () ∧ ∀ i j : Fin n, F (cs i) = F (cs j)
  | sum m Co R θ => Good μ m ∧ 1 ≤ Co ∧ ∀ f < F m, ∀ co < Co, ∀ r < R, ∃ ci < C m, θ f ci co r ≠ ⊥

/-- Repetition index `r` is in range for every parameter tensor it is used on. -/
def RepIn (r : ℕ) : Mod → Prop
  | base c => Circ.RepIn r c
  | cat1 _ cs => ∀ i, RepIn r (cs i)
  | cat2 _ cs => ∀ i, RepIn r (cs i)
  | fold m => RepIn r m
  | mul _ _ cs => ∀ i, RepIn r (cs i)
  | sum m _ R _ => RepIn r m ∧ (R = 1 ∨ r < R)

/-! ### What the constructor checks give -/

theorem check1_ok {l : List Mod} (h : check1 l = .ok ()) :
    (∀ a ∈ l, ∀ b ∈ l, a.C = b.C) ∧ Scope.allPairwiseDisjoint (l.map scope) = .ok true ∧ l ≠ [] ∧
      ∃ s, Scope.joinAll (l.map scope) = .ok s := by
  unfold check1 at h
  simp only [bind, Except.bind, pure, Except.pure, throw, throwThe, MonadExceptOf.throw] at h
  split at h
  · simp at h
  rename_i hC
  split at h
  · simp at h
  rename_i b hb
  cases b
  · simp at h
  simp only [Bool.not_true, Bool.false_eq_true, if_false] at h
  split at h
  · simp at h
  rename_i s hs
  have hne : l ≠ [] := by
    rintro rfl; simp [Scope.joinAll] at hs
  refine ⟨?_, hb, hne, s, hs⟩
  simp at hC
  intro a ha b hb
  rw [hC a ha, hC b hb]

theorem check2_ok {l : List Mod} (h : check2 l = .ok ()) :
    (∀ a ∈ l, ∀ b ∈ l, a.F = b.F) ∧ Scope.allEqual (l.map scope) = true ∧ l ≠ [] := by
  unfold check2 at h
  simp only [bind, Except.bind, pure, Except.pure, throw, throwThe, MonadExceptOf.throw] at h
  split at h
  · simp at h
  rename_i hC
  split at h
  · simp at h
  rename_i hb
  split at h
  · simp at h
  rename_i hne
  refine ⟨?_, by simpa using hb, by simpa using hne⟩
  simp at hC
  intro a ha b hb
  rw [hC a ha, hC b hb]

theorem checkMul_ok {outer : Bool} {l : List Mod} (h : checkMul outer l = .ok ()) :
    l ≠ [] ∧ Scope.allPairwiseDisjoint (l.map scope) = .ok true ∧ (∃ s, Scope.joinAll (l.map scope) = .ok s) ∧
      (outer = false → ∀ m ∈ l, m.C = 1 ∨ m.C = (l.map C).foldr max 0) := by
  unfold checkMul at h
  simp only [bind, Except.bind, pure, Except.pure, throw, throwThe, MonadExceptOf.throw] at h
  split at h
  · simp at h
  rename_i hne
  split at h
  · simp at h
  rename_i b hb
  cases b
  · simp at h
  simp only [Bool.not_true, Bool.false_eq_true, if_false] at h
  split at h
  · simp at h
  rename_i s hs
  refine ⟨by simpa using hne, hb, ⟨s, hs⟩, ?_⟩
  rintro rfl
  simp only [Bool.false_eq_true, if_false] at h
  split at h
  · simp at h
  rename_i hc
  intro m hm
  simp only [Bool.not_eq_true', Bool.not_eq_false, List.all_eq_true, List.mem_map, Bool.or_eq_true, beq_iff_eq] at hc
  exact hc _ ⟨m, hm, rfl⟩

/-- The facts that hold for the scopes of a list of accepted inputs. -/
theorem scopes {n : ℕ} {cs : Fin n → Mod} (hv : ∀ i, Scope.Valid (scope (cs i))) (hev : ∀ i, (scope (cs i)).evidence = [])
    (hne : List.ofFn cs ≠ []) (hd : Scope.allPairwiseDisjoint ((List.ofFn cs).map scope) = .ok true) :
    (Scope.Valid (joined (List.ofFn fun i => scope (cs i))) ∧ (joined (List.ofFn fun i => scope (cs i))).evidence = [] ∧
      ∀ v, v ∈ (joined (List.ofFn fun i => scope (cs i))).query ↔ ∃ i, v ∈ (scope (cs i)).query) ∧
      ∀ i j, i ≠ j → ∀ v ∈ (scope (cs i)).query, v ∉ (scope (cs j)).query := by
  have el : (List.ofFn cs).map scope = List.ofFn fun i => scope (cs i) := by rw [List.map_ofFn]; rfl
  rw [el] at hd
  have hval : ∀ t ∈ List.ofFn (fun i => scope (cs i)), Scope.Valid t := by
    intro t ht
    obtain ⟨i, rfl⟩ := List.mem_ofFn.1 ht
    exact hv i
  have hne' : List.ofFn (fun i => scope (cs i)) ≠ [] := by rw [← el]; simpa using hne
  obtain ⟨s', hs', hsv, hq, he⟩ := Scope.joinAll_ok _ hne' hval
  have ej : joined (List.ofFn fun i => scope (cs i)) = s' := by unfold joined; rw [hs']
  refine ⟨?_, ?_⟩
  · rw [ej]
    refine ⟨hsv, ?_, ?_⟩
    · apply List.eq_nil_iff_forall_not_mem.2
      intro x hx
      obtain ⟨⟨t, ht, hxt⟩, -⟩ := (he x).1 hx
      obtain ⟨i, rfl⟩ := List.mem_ofFn.1 ht
      rw [hev i] at hxt
      simp at hxt
    · intro v
      rw [hq v]
      constructor
      · rintro ⟨t, ht, h⟩
        obtain ⟨i, rfl⟩ := List.mem_ofFn.1 ht
        exact ⟨i, h⟩
      · rintro ⟨i, h⟩
        exact ⟨_, List.mem_ofFn.2 ⟨i, rfl⟩, h⟩
  · obtain ⟨b, hb, hiff⟩ := Scope.C03_allPairwiseDisjoint (l := List.ofFn fun i => scope (cs i))
      (fun t ht => reachable_of_valid (hval t ht))
    obtain rfl : b = true := by rw [hb] at hd; simpa using hd
    have hp := hiff.1 rfl
    have key : ∀ i j : Fin n, i < j → ∀ v ∈ (scope (cs i)).query, v ∉ (scope (cs j)).query := by
      intro i j hij v hv
      have := hp i j (by simp) (by simp) hij v (by simpa using hv)
      simpa using this
    intro i j hij v hvi hvj
    rcases lt_or_gt_of_ne hij with h | h
    · exact key i j h v hvi hvj
    · exact key j i h v hvj hvi

theorem pos_of_ne {n : ℕ} {cs : Fin n → Mod} (h : List.ofFn cs ≠ []) : 0 < n := by
  rcases Nat.eq_zero_or_pos n with rfl | h'
  · simp at h
  · exact h'

theorem mul_F {outer : Bool} {n : ℕ} {cs : Fin n → Mod} (h : ∀ i j : Fin n, F (cs i) = F (cs j)) (i : Fin n) :
    F (cs i) = F (mul outer n cs) := by
  have hn : 0 < n := i.pos
  rw [F, dif_pos hn]
  exact h _ _

theorem cat2_F {n : ℕ} {cs : Fin n → Mod} (h : check2 (List.ofFn cs) = .ok ()) (i : Fin n) :
    F (cs i) = F (cat2 n cs) := by
  have hn : 0 < n := i.pos
  rw [F, dif_pos hn]
  exact (check2_ok h).1 _ (List.mem_ofFn.2 ⟨i, rfl⟩) _ (List.mem_ofFn.2 ⟨_, rfl⟩)

theorem cat1_C {n : ℕ} {cs : Fin n → Mod} (h : check1 (List.ofFn cs) = .ok ()) (i : Fin n) :
    C (cs i) = C (cat1 n cs) := by
  have hn : 0 < n := i.pos
  rw [C, dif_pos hn]
  exact (check1_ok h).1 _ (List.mem_ofFn.2 ⟨i, rfl⟩) _ (List.mem_ofFn.2 ⟨_, rfl⟩)

/-- The scope of a module is the union of the scopes of its features. -/
theorem scope_facts {m : Mod} (h : m.Good μ) : Scope.Valid (scope m) ∧ (scope m).evidence = [] ∧
    ∀ v, v ∈ (scope m).query ↔ ∃ f < F m, v ∈ fs m f := by
  induction m with
  | base c =>
    obtain ⟨h1, h2, -, -⟩ := Circ.scope_facts h.1
    exact ⟨h1, h2, fun v => Circ.mem_scope_iff h.1 v⟩
  | cat1 n cs ih =>
    obtain ⟨hc, hck⟩ := h
    obtain ⟨-, hd, hne, -⟩ := check1_ok hck
    obtain ⟨⟨a, b, c⟩, -⟩ := scopes (fun i => (ih i (hc i)).1) (fun i => (ih i (hc i)).2.1) hne hd
    refine ⟨a, b, fun v => ?_⟩
    rw [scope, c v]
    constructor
    · rintro ⟨i, hi⟩
      obtain ⟨f, hf, hv⟩ := ((ih i (hc i)).2.2 v).1 hi
      exact ⟨_, off_lt (fun i => F (cs i)) i hf, by
        rw [fs, blk_offset ∅ (fun i => F (cs i)) (fun i => fs (cs i)) i hf]; exact hv⟩
    · rintro ⟨f, hf, hv⟩
      obtain ⟨i, f', hf', rfl⟩ := exists_off (k := fun i => F (cs i)) hf
      rw [fs, blk_offset ∅ (fun i => F (cs i)) (fun i => fs (cs i)) i hf'] at hv
      exact ⟨i, ((ih i (hc i)).2.2 v).2 ⟨f', hf', hv⟩⟩
  | cat2 n cs ih =>
    obtain ⟨hc, hck, -⟩ := h
    have hn := pos_of_ne (check2_ok hck).2.2
    have := ih ⟨0, hn⟩ (hc _)
    simpa only [scope, F, fs, hn, dif_pos] using this
  | fold m ih =>
    obtain ⟨h1, h2, h3⟩ := ih h
    refine ⟨h1, h2, fun v => ?_⟩
    rw [scope, h3 v]
    simp only [F, fs, mem_biUnion, mem_range]
    constructor
    · rintro ⟨f, hf, hv⟩; exact ⟨0, Nat.one_pos, f, hf, hv⟩
    · rintro ⟨-, -, f, hf, hv⟩; exact ⟨f, hf, hv⟩
  | mul outer n cs ih =>
    obtain ⟨hc, hck, hF⟩ := h
    obtain ⟨hne, hd, -, -⟩ := checkMul_ok hck
    obtain ⟨⟨a, b, c⟩, -⟩ := scopes (fun i => (ih i (hc i)).1) (fun i => (ih i (hc i)).2.1) hne hd
    refine ⟨a, b, fun v => ?_⟩
    rw [scope, c v]
    constructor
    · rintro ⟨i, hi⟩
      obtain ⟨f, hf, hv⟩ := ((ih i (hc i)).2.2 v).1 hi
      exact ⟨f, by rw [← mul_F hF i]; exact hf, mem_biUnion.2 ⟨i, mem_univ _, hv⟩⟩
    · rintro ⟨f, hf, hv⟩
      obtain ⟨i, -, hv⟩ := mem_biUnion.1 hv
      exact ⟨i, ((ih i (hc i)).2.2 v).2 ⟨f, by rw [mul_F (outer := outer) hF i]; exact hf, hv⟩⟩
  | sum m Co R θ ih => exact ih h.1

/-- Features of different inputs have disjoint scopes. -/
theorem children_disjoint {n : ℕ} {cs : Fin n → Mod} (hc : ∀ i, Good μ (cs i)) (hne : List.ofFn cs ≠ [])
    (hd : Scope.allPairwiseDisjoint ((List.ofFn cs).map scope) = .ok true) {i j : Fin n} (hij : i ≠ j) {f g : ℕ}
    (hf : f < F (cs i)) (hg : g < F (cs j)) : Disjoint (fs (cs i) f) (fs (cs j) g) := by
  have := (scopes (fun i => (scope_facts (hc i)).1) (fun i => (scope_facts (hc i)).2.1) hne hd).2 i j hij
  rw [Finset.disjoint_left]
  intro v h1 h2
  exact this v (((scope_facts (hc i)).2.2 v).2 ⟨f, hf, h1⟩) (((scope_facts (hc j)).2.2 v).2 ⟨g, hg, h2⟩)

/-! ### The channels of a product -/

theorem foldr_max_mem {l : List ℕ} (h : l ≠ []) : l.foldr max 0 ∈ l := by
  induction l with
  | nil => exact absurd rfl h
  | cons a l ih =>
    rw [List.foldr_cons]
    by_cases hl : l = []
    · subst hl; simp
    · rcases max_choice a (l.foldr max 0) with e | e <;> rw [e]
      · simp
      · exact List.mem_cons_of_mem _ (ih hl)

theorem le_foldr_max {l : List ℕ} {a : ℕ} (h : a ∈ l) : a ≤ l.foldr max 0 := by
  induction l with
  | nil => simp at h
  | cons b l ih =>
    rw [List.foldr_cons]
    rcases List.mem_cons.1 h with rfl | h
    · exact le_max_left _ _
    · exact (ih h).trans (le_max_right _ _)

/-- The counts of the inputs. -/
abbrev counts {n : ℕ} (cs : Fin n → Mod) : List ℕ := List.ofFn fun j : Fin n => C (cs j)

theorem counts_getD {n : ℕ} (cs : Fin n → Mod) (i : Fin n) : (counts cs).getD i 0 = C (cs i) := by
  rw [List.getD_eq_getElem _ _ (by simp)]
  simp

theorem table_getD {l : List ℕ} {ch : ℕ} (h : ch < Outer.outChannels l) :
    Outer.ValidTuple l ((Outer.unravelTable l).getD ch []) := by
  obtain ⟨idx, h1, h2⟩ := (Outer.C19_unravel_bijective l).2.1 ch h
  rw [List.getD_eq_getElem?_getD, h1]
  exact h2

theorem tuple_getD {l idx : List ℕ} (h : Outer.ValidTuple l idx) {i : ℕ} (hi : i < l.length) : idx.getD i 0 < l.getD i 0 := by
  have hl := List.Forall₂.length_eq h
  have := (List.forall₂_iff_get.1 h).2 i hi (hl ▸ hi)
  rw [List.getD_eq_getElem _ _ hi, List.getD_eq_getElem _ _ (hl ▸ hi)]
  exact this

/-- The channel read from input `i` exists. -/
theorem chan_lt {outer : Bool} {n : ℕ} {cs : Fin n → Mod} (hck : checkMul outer (List.ofFn cs) = .ok ()) {ch : ℕ}
    (h : ch < C (mul outer n cs)) (i : Fin n) : chan outer (counts cs) ch i < C (cs i) := by
  unfold chan
  rw [counts_getD]
  split_ifs with h1 h2
  · rw [h1]; exact Nat.one_pos
  · subst h2
    have h' : ch < Outer.outChannels (counts cs) := h
    have := tuple_getD (table_getD h') (i := i) (by simp)
    rwa [counts_getD] at this
  · have hf : outer = false := by simpa using h2
    subst hf
    have h' : ch < (counts cs).foldr max 0 := h
    rcases (checkMul_ok hck).2.2.2 rfl (cs i) (List.mem_ofFn.2 ⟨i, rfl⟩) with h3 | h3
    · exact absurd h3 h1
    · have em : (List.ofFn cs).map C = counts cs := by rw [List.map_ofFn]; rfl
      rw [em] at h3
      omega

theorem ofFn_sum_fin {n : ℕ} (g : Fin n → LogV) : (List.ofFn g).sum = ∑ i, g i := List.sum_ofFn

/-- The value of a product with broadcast features: the sum over the inputs of the requested channel. -/
theorem val_mul_gen {outer : Bool} {n : ℕ} {cs : Fin n → Mod} (hck : checkMul outer (List.ofFn cs) = .ok ())
    (f : ℕ) {ch : ℕ} (h : ch < C (mul outer n cs)) (x : Row) (r : ℕ) : val (mul outer n cs) f x r ch =
      ∑ i, val (cs i) (if outer = true ∧ F (cs i) = 1 then 0 else f) x r (chan outer (counts cs) ch i) := by
  cases outer with
  | false =>
    rw [val]
    beta_reduce
    rw [ofFn_sum_fin]
    refine sum_congr rfl fun i _ => ?_
    unfold chan
    rw [counts_getD, if_neg (show ¬ (false = true ∧ F (cs i) = 1) by simp)]
    rfl
  | true =>
    have hne : List.ofFn cs ≠ [] := (checkMul_ok hck).1
    have hn := pos_of_ne hne
    rw [val]
    beta_reduce
    set xs : List (List LogV) := List.ofFn fun i : Fin n => (List.range (C (cs i))).map fun k =>
      val (cs i) (if F (cs i) = 1 then 0 else f) x r k with hxs
    have hxl : xs.map List.length = counts cs := by
      rw [hxs, List.map_ofFn]; congr 1; funext i; simp
    have hxn : xs ≠ [] := by
      intro e
      have := congrArg List.length e
      simp [hxs] at this
      omega
    have h' : ch < Outer.outChannels (counts cs) := h
    obtain ⟨idx, h1, h2⟩ := (Outer.C19_unravel_bijective (counts cs)).2.1 ch h'
    have htab : (Outer.unravelTable (counts cs)).getD ch [] = idx := by rw [List.getD_eq_getElem?_getD, h1]; rfl
    have hil : idx.length = n := by
      rw [← List.Forall₂.length_eq h2]; simp
    have e1 : (Outer.outerLL xs).getD ch ⊥ = Outer.pick xs idx := by
      rw [Outer.C19_log_likelihood xs hxn, hxl, List.getD_eq_getElem?_getD, List.getElem?_map, h1]; rfl
    rw [e1]
    have e2 : xs.zip idx = List.ofFn fun i : Fin n => ((List.range (C (cs i))).map (fun k =>
        val (cs i) (if F (cs i) = 1 then 0 else f) x r k), idx.getD i 0) := by
      apply List.ext_getElem
      · simp [hxs, hil]
      · intro i h3 h4
        have hi : i < n := by simpa using h4
        rw [List.getElem_zip]
        simp only [hxs, List.getElem_ofFn]
        rw [List.getD_eq_getElem _ _ (by omega)]
    rw [Outer.pick, e2, List.map_ofFn, ofFn_sum_fin]
    refine sum_congr rfl fun i _ => ?_
    have hlt : idx.getD i 0 < C (cs i) := by
      have := tuple_getD h2 (i := i) (by simp)
      rwa [counts_getD] at this
    have hch : chan true (counts cs) ch i = idx.getD i 0 := by
      unfold chan
      rw [counts_getD, htab]
      by_cases h5 : C (cs i) = 1
      · rw [if_pos h5]; omega
      · rw [if_neg h5]; rfl
    rw [hch]
    have hf' : (if true = true ∧ F (cs i) = 1 then 0 else f) = if F (cs i) = 1 then 0 else f := by simp
    rw [hf']
    simp only [Function.comp]
    rw [List.getD_eq_getElem _ _ (by simpa using hlt)]
    simp

/-- The value of a product of inputs with the same number of features: the sum over the inputs of the requested
channel. -/
theorem val_mul {outer : Bool} {n : ℕ} {cs : Fin n → Mod} (hck : checkMul outer (List.ofFn cs) = .ok ())
    (hF : ∀ i j : Fin n, F (cs i) = F (cs j)) {f : ℕ} (hf : f < F (mul outer n cs)) {ch : ℕ} (h : ch < C (mul outer n cs))
    (x : Row) (r : ℕ) : val (mul outer n cs) f x r ch = ∑ i, val (cs i) f x r (chan outer (counts cs) ch i) := by
  rw [val_mul_gen hck f h]
  refine sum_congr rfl fun i _ => ?_
  have hf' : (if outer = true ∧ F (cs i) = 1 then 0 else f) = f := by
    split_ifs with h6
    · rw [← mul_F (outer := outer) hF i] at hf; omega
    · rfl
  rw [hf']

/-! ### Densities -/

theorem fam {m : Mod} (h : m.Good μ) {r : ℕ} (hr : m.RepIn r) :
    Fam μ (F m) (C m) (fs m) (fun f x ch => val m f x r ch) := by
  induction m with
  | base c => exact Fam.baseR h.1 h.2.1 h.2.2 hr
  | cat1 n cs ih =>
    obtain ⟨hc, hck⟩ := h
    obtain ⟨-, hd, hne, -⟩ := check1_ok hck
    refine Fam.concat (k := fun i => F (cs i)) (u := fun i f x ch => val (cs i) f x r ch) (fun i => ?_)
      fun i j hij f hf g hg => children_disjoint hc hne hd hij hf hg
    have := ih i (hc i) (hr i)
    rwa [cat1_C hck i] at this
  | cat2 n cs ih =>
    obtain ⟨hc, hck, hal⟩ := h
    have hn := pos_of_ne (check2_ok hck).2.2
    have es : fs (cat2 n cs) = fs (cs ⟨0, hn⟩) := by rw [fs, dif_pos hn]
    have := Fam.stack (F := F (cat2 n cs)) (k := fun i => C (cs i)) (s := fs (cs ⟨0, hn⟩))
      (u := fun i f x ch => val (cs i) f x r ch) (μ := μ) (fun i => ?_) hn
    · rw [es]; exact this
    · have h1 := ih i (hc i) (hr i)
      rw [cat2_F hck i] at h1
      have hs : ∀ f < F (cat2 n cs), fs (cs ⟨0, hn⟩) f = fs (cs i) f := fun f hf =>
        hal _ _ f (by rw [cat2_F hck]; exact hf)
      refine ⟨fun f hf g hg => by rw [hs f hf, hs g hg]; exact h1.disj f hf g hg, fun f hf => ?_, fun f hf => ?_,
        fun f hf => ?_, fun f hf => ?_, fun f hf => ?_⟩
      · rw [hs f hf]; exact h1.loc f hf
      · exact h1.meas f hf
      · rw [hs f hf]; exact h1.miss f hf
      · rw [hs f hf]; exact h1.int f hf
      · exact h1.mono f hf
  | fold m ih =>
    refine (ih h hr).group (n' := 1) (own := fun _ => 0) (κ := fun ch _ => ch) (fun _ _ _ h => h) ?_ ?_
    · intro o ho v
      obtain rfl : o = 0 := by omega
      simp only [fs, mem_biUnion, mem_range, true_and]
    · intro o ho ch _ x
      obtain rfl : o = 0 := by omega
      simp only [filter_true]
      rfl
  | mul outer n cs ih =>
    obtain ⟨hc, hck, hF⟩ := h
    obtain ⟨hne, hd, -, -⟩ := checkMul_ok hck
    refine Fam.mul (c := fun i => C (cs i)) (s := fun i => fs (cs i)) (u := fun i f x ch => val (cs i) f x r ch)
      (κ := fun ch i => chan outer (counts cs) ch i) (fun i => ?_) ?_ (fun ch hch i => chan_lt hck hch i) ?_
      (fun f hf ch hch x => val_mul hck hF hf hch x r)
    · have := ih i (hc i) (hr i)
      rwa [mul_F hF i] at this
    · intro i j hij f hf g hg
      rw [← mul_F hF i] at hf
      rw [← mul_F hF j] at hg
      exact children_disjoint hc hne hd hij hf hg
    · intro f _ v
      simp only [fs, mem_biUnion, mem_univ, true_and]
  | sum m Co R θ ih =>
    refine (ih h.1 hr.1).sum (w := fun f co ci => softmax (C m) (fun i => θ f i co (bc R r)) ci)
      (fun f co ci => softmax_nonneg _ _ _) (fun f hf co hco => sum_softmax (h.2.2 f hf co hco _ (bc_lt hr.2))) ?_
    intro f _ co _ x
    show expL (lse _ _) = _
    rw [expL_lse]
    exact sum_congr rfl fun ci _ => by rw [expL_add, expL_logSoftmax_eq_softmax, mul_comm]

end Mod

end Verif.LP

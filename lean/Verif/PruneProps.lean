import Verif.Prune
import Verif.Em
import Verif.MarginalizeProps
import Mathlib.Algebra.BigOperators.Ring.Finset
import Mathlib.Algebra.BigOperators.Intervals
import Mathlib.Tactic.Ring
import Mathlib.Tactic.Linarith
import Mathlib.Tactic.NormNum

/-!
# C30: `prune_sums` preserves the distribution
-/

namespace Verif
namespace Circ
open Em (SameReps)

/-! ### Cats as lists -/

/-- `Cat(l, dim=2)`. -/
def catL (l : List Circ) : Circ := cat2 l.length l.get

theorem cat2_eq_catL {n : ℕ} (cs : Fin n → Circ) : cat2 n cs = catL (List.ofFn cs) := by
  have h : n = (List.ofFn cs).length := by simp
  unfold catL
  simp only [cat2.injEq]
  refine ⟨h, (Fin.heq_fun_iff h).2 fun i => by simp⟩

theorem ofFn_get (l : List Circ) : List.ofFn l.get = l := List.ofFn_get l

theorem ofFn_get_map {α : Type*} (l : List Circ) (g : Circ → α) : (List.ofFn fun i => g (l.get i)) = l.map g := by
  conv_rhs => rw [← ofFn_get l, List.map_ofFn]
  rfl

theorem F_catL {a : Circ} {l : List Circ} : F (catL (a :: l)) = F a := by simp [catL, F]
theorem scope_catL {a : Circ} {l : List Circ} : scope (catL (a :: l)) = scope a := by simp [catL, scope]
theorem C_catL (l : List Circ) : C (catL l) = (l.map C).sum := by
  simp only [catL, C]; rw [ofFn_get_map l C]
theorem size_catL (l : List Circ) : size (catL l) = 1 + (l.map size).sum := by
  simp only [catL, size]; rw [ofFn_get_map l size]
theorem fscopes_catL {a : Circ} {l : List Circ} :
    (den (catL (a :: l))).map Feat.scope = (den a).map Feat.scope := by
  unfold catL; rw [map_scope_cat2 _ (by simp)]; rfl

/-- One block of a channel concatenation. -/
noncomputable def blk (f : ℕ) (x : Row) (r : ℕ) (c : Circ) : ℕ × (ℕ → LogV) := (C c, fun k => featAt (den c) f x r k)

theorem featAt_catL {l : List Circ} {f : ℕ} (hl : l ≠ []) (hf : f < F (catL l)) (x : Row) (r ch : ℕ) :
    featAt (den (catL l)) f x r ch = catCh (l.map (blk f x r)) ch := by
  have hn : 0 < l.length := List.length_pos_iff.2 hl
  rw [featAt_eq (by rw [den_length]; exact hf)]
  simp only [catL, den, hn, dif_pos, List.getElem_mapIdx]
  rw [ofFn_get_map l fun c => (C c, fun k => featAt (den c) f x r k)]
  rfl

theorem accepted_catL {l : List Circ} : Accepted (catL l) ↔ (∀ c ∈ l, Accepted c) ∧ check2 l = .ok () := by
  unfold catL
  simp only [Accepted, ofFn_get]
  refine and_congr_left fun _ => ⟨fun h c hc => ?_, fun h i => h _ (List.get_mem l i)⟩
  obtain ⟨i, rfl⟩ := List.get_of_mem hc
  exact h i

theorem sameReps_catL {T : ℕ} {l : List Circ} : SameReps T (catL l) ↔ ∀ c ∈ l, SameReps T c := by
  unfold catL
  simp only [SameReps]
  refine ⟨fun h c hc => ?_, fun h i => h _ (List.get_mem l i)⟩
  obtain ⟨i, rfl⟩ := List.get_of_mem hc
  exact h i

theorem finite_catL {l : List Circ} : FiniteLogits (catL l) ↔ ∀ c ∈ l, FiniteLogits c := by
  unfold catL
  simp only [FiniteLogits]
  refine ⟨fun h c hc => ?_, fun h i => h _ (List.get_mem l i)⟩
  obtain ⟨i, rfl⟩ := List.get_of_mem hc
  exact h i

/-! ### Where flattening is meaningful -/

/-- Below a Sum, along Cat and Sum modules only: Sums have one channel and Cats concatenate channels. -/
def SpineOk : Circ → Prop
  | leaf _ _ _ _ => True
  | prod _ => True
  | cat1 _ _ => False
  | cat2 _ cs => ∀ i, SpineOk (cs i)
  | sum c Co _ _ => Co = 1 ∧ SpineOk c

/-- A feature concatenation with at least one input that is not a Sum. -/
def PlainCat1 : Circ → Prop
  | cat1 _ cs => ∃ i, sumParts (cs i) = none
  | _ => False

/-- Every Sum of the circuit sits on a spine of one-channel Sums, or on a feature concatenation not made of Sums
only. -/
def Prunable : Circ → Prop
  | leaf _ _ _ _ => True
  | prod c => Prunable c
  | cat1 _ cs => ∀ i, Prunable (cs i)
  | cat2 _ cs => ∀ i, Prunable (cs i)
  | sum c _ _ _ => Prunable c ∧ (SpineOk c ∨ PlainCat1 c)

theorem spine_catL {l : List Circ} : SpineOk (catL l) ↔ ∀ c ∈ l, SpineOk c := by
  unfold catL
  simp only [SpineOk]
  refine ⟨fun h c hc => ?_, fun h i => h _ (List.get_mem l i)⟩
  obtain ⟨i, rfl⟩ := List.get_of_mem hc
  exact h i

theorem prunable_catL {l : List Circ} : Prunable (catL l) ↔ ∀ c ∈ l, Prunable c := by
  unfold catL
  simp only [Prunable]
  refine ⟨fun h c hc => ?_, fun h i => h _ (List.get_mem l i)⟩
  obtain ⟨i, rfl⟩ := List.get_of_mem hc
  exact h i

/-- Accepted, with one number of repetitions and finite logits, and of prunable form. -/
def Fine (T : ℕ) (c : Circ) : Prop := Accepted c ∧ SameReps T c ∧ FiniteLogits c ∧ Prunable c

theorem fine_catL {T : ℕ} {l : List Circ} : Fine T (catL l) ↔ (∀ c ∈ l, Fine T c) ∧ check2 l = .ok () := by
  unfold Fine
  rw [accepted_catL, sameReps_catL, finite_catL, prunable_catL]
  constructor
  · rintro ⟨⟨a, e⟩, b, c, d⟩; exact ⟨fun x hx => ⟨a x hx, b x hx, c x hx, d x hx⟩, e⟩
  · rintro ⟨h, e⟩
    exact ⟨⟨fun x hx => (h x hx).1, e⟩, fun x hx => (h x hx).2.1, fun x hx => (h x hx).2.2.1,
      fun x hx => (h x hx).2.2.2⟩

/-- The two modules have the same shape, scopes and log-likelihoods. -/
structure Same (T : ℕ) (c c' : Circ) : Prop where
  F : F c' = F c
  C : C c' = C c
  scope : scope c' = scope c
  fscope : (den c').map Feat.scope = (den c).map Feat.scope
  val : ∀ f < Circ.F c, ∀ ch < Circ.C c, ∀ x r, bc T r < T → featAt (den c') f x r ch = featAt (den c) f x r ch

theorem Same.refl (T : ℕ) (c : Circ) : Same T c c := ⟨rfl, rfl, rfl, rfl, fun _ _ _ _ _ _ _ => rfl⟩

theorem Same.trans {T : ℕ} {a b c : Circ} (h : Same T a b) (k : Same T b c) : Same T a c :=
  ⟨k.F.trans h.F, k.C.trans h.C, k.scope.trans h.scope, k.fscope.trans h.fscope, fun f hf ch hch x r hr =>
    (k.val f (by rw [h.F]; exact hf) ch (by rw [h.C]; exact hch) x r hr).trans (h.val f hf ch hch x r hr)⟩

/-! ### Blocks -/

theorem catCh_append (l m : List (ℕ × (ℕ → LogV))) (ch : ℕ) :
    catCh (l ++ m) ch = if ch < (l.map Prod.fst).sum then catCh l ch else catCh m (ch - (l.map Prod.fst).sum) := by
  induction l generalizing ch with
  | nil => simp
  | cons a l ih =>
    obtain ⟨n, g⟩ := a
    simp only [List.cons_append, catCh, List.map_cons, List.sum_cons]
    by_cases h : ch < n
    · rw [if_pos h, if_pos h, if_pos (by omega)]
    · rw [if_neg h, if_neg h, ih]
      by_cases h2 : ch - n < (l.map Prod.fst).sum
      · rw [if_pos h2, if_pos (by omega)]
      · rw [if_neg h2, if_neg (by omega)]; congr 1; omega

theorem sum_catW_catCh (L : List (ℕ × (ℕ → ℝ) × (ℕ → LogV))) :
    ∑ ch ∈ Finset.range (L.map fun t => t.1).sum, catW (L.map fun t => (t.1, t.2.1)) ch *
        expL (catCh (L.map fun t => (t.1, t.2.2)) ch) =
      (L.map fun t => ∑ k ∈ Finset.range t.1, t.2.1 k * expL (t.2.2 k)).sum := by
  induction L with
  | nil => simp
  | cons a L ih =>
    obtain ⟨n, w, v⟩ := a
    simp only [List.map_cons, List.sum_cons]
    rw [Finset.sum_range_add, ← ih]
    congr 1
    · refine Finset.sum_congr rfl fun k hk => ?_
      simp [catW, catCh, Finset.mem_range.1 hk]
    · refine Finset.sum_congr rfl fun k _ => ?_
      simp [catW, catCh]

theorem sum_catW (L : List (ℕ × (ℕ → ℝ))) :
    ∑ ch ∈ Finset.range (L.map fun t => t.1).sum, catW L ch =
      (L.map fun t => ∑ k ∈ Finset.range t.1, t.2 k).sum := by
  induction L with
  | nil => simp
  | cons a L ih =>
    obtain ⟨n, w⟩ := a
    simp only [List.map_cons, List.sum_cons]
    rw [Finset.sum_range_add, ← ih]
    congr 1
    · refine Finset.sum_congr rfl fun k hk => ?_
      simp [catW, Finset.mem_range.1 hk]
    · refine Finset.sum_congr rfl fun k _ => ?_
      simp [catW]

theorem catW_pos (L : List (ℕ × (ℕ → ℝ))) (h : ∀ t ∈ L, ∀ k < t.1, 0 < t.2 k) :
    ∀ ch < (L.map fun t => t.1).sum, 0 < catW L ch := by
  induction L with
  | nil => intro ch h; simp at h
  | cons a l ih =>
    intro ch hch
    simp only [List.map_cons, List.sum_cons] at hch
    obtain ⟨n, g⟩ := a
    simp only [catW]
    split
    · rename_i hk; exact h (n, g) (by simp) _ hk
    · exact ih (fun t ht => h t (by simp [ht])) _ (by omega)

/-! ### The pieces of one flattening -/

theorem allSome_eq {α β : Type} {p : α → Option β} {l : List α} {bs : List β} (h : allSome p l = some bs) :
    l.map p = bs.map some := by
  induction l generalizing bs with
  | nil => simp [allSome] at h; subst h; rfl
  | cons a l ih =>
    simp only [allSome] at h
    split at h
    · rename_i b bs' hb hbs
      simp only [Option.some.injEq] at h
      subst h
      simp [hb, ih hbs]
    · simp at h

theorem allSome_none {α β : Type} {p : α → Option β} {l : List α} {a : α} (ha : a ∈ l) (h : p a = none) :
    allSome p l = none := by
  induction l with
  | nil => simp at ha
  | cons b l ih =>
    rcases List.mem_cons.1 ha with rfl | ha
    · simp [allSome, h]
    · simp only [allSome]
      rw [ih ha]
      split
      · rename_i h2; simp at h2
      · rfl

/-- A Sum given by its parts. -/
abbrev Part := Circ × ℕ × ℕ × (ℕ → ℕ → ℕ → ℕ → LogV)

def ofPart (p : Part) : Circ := sum p.1 p.2.1 p.2.2.1 p.2.2.2

theorem sumParts_eq {c : Circ} {p : Part} (h : sumParts c = some p) : c = ofPart p := by
  cases c <;> simp [sumParts] at h
  subst h; rfl

theorem allSome_sumParts {l : List Circ} {ps : List Part} (h : allSome sumParts l = some ps) : l = ps.map ofPart := by
  have := allSome_eq h
  induction l generalizing ps with
  | nil => simpa using this
  | cons a l ih =>
    cases ps with
    | nil => simp at this
    | cons p ps =>
      simp only [List.map_cons, List.cons.injEq] at this
      rw [List.map_cons, sumParts_eq this.1]
      congr 1
      refine ih ?_ this.2
      simp only [allSome] at h
      split at h
      · rename_i hb hbs; simp only [Option.some.injEq, List.cons.injEq] at h; rw [hbs, h.2]
      · simp at h

theorem bc_self {n i : ℕ} (h : i < n) : bc n i = i := by unfold bc; split <;> omega

theorem bc_bc (n i : ℕ) : bc n (bc n i) = bc n i := by unfold bc; split <;> rfl

theorem bsize_self (n : ℕ) : bsize n n = .ok n := by simp [bsize]

theorem bsize_one (n : ℕ) : bsize 1 n = .ok n := by
  unfold bsize
  split
  · rename_i h; rw [h]
  · simp

/-- The scaled weights of child `j`. -/
noncomputable def scaledW (cur : Weights) (q : Part × ℕ) : Weights :=
  ⟨cur.Fw, C q.1.1, cur.Co, cur.R, fun f ci co r =>
    weight q.1.1 q.1.2.2.2 (bc cur.Fw f) ci 0 (bc cur.R r) * cur.val (bc cur.Fw f) q.2 (bc cur.Co co) (bc cur.R r)⟩

theorem scaleAll_eq (cur : Weights) (ps : List Part) (h : ∀ p ∈ ps, F p.1 = cur.Fw ∧ p.2.1 = 1 ∧ p.2.2.1 = cur.R) :
    ∀ i, i + ps.length ≤ cur.Ci →
      scaleAll cur i (ps.map fun q => weightsOf q.1 q.2.1 q.2.2.1 q.2.2.2) =
        .ok ((ps.zipIdx i).map (scaledW cur)) := by
  induction ps with
  | nil => intro i _; rfl
  | cons p ps ih =>
    intro i hi
    obtain ⟨h1, h2, h3⟩ := h p (by simp)
    simp only [List.length_cons] at hi
    simp only [List.map_cons, scaleAll, scaleOne, weightsOf, h1, h2, h3, bsize_self, bsize_one, bind, Except.bind, pure,
      Except.pure]
    rw [if_neg (by omega)]
    have := ih (fun q hq => h q (by simp [hq])) (i + 1) (by omega)
    simp only [weightsOf] at this
    simp only [this, List.zipIdx_cons, List.map_cons]
    congr 2

theorem concatCi_scaled (cur : Weights) (p : Part) (ps : List Part) :
    concatCi (((p :: ps).zipIdx 0).map (scaledW cur)) =
      .ok ⟨cur.Fw, ((p :: ps).map fun q => C q.1).sum, cur.Co, cur.R, fun f ci co r =>
        catW (((p :: ps).zipIdx 0).map fun q => (C q.1.1, fun k => (scaledW cur q).val f k co r)) ci⟩ := by
  simp only [List.zipIdx_cons, List.map_cons, concatCi]
  rw [if_pos (by simp [scaledW])]
  congr 2
  · simp only [List.map_cons, List.map_map, List.sum_cons, scaledW]
    congr 2
    clear p
    generalize 0 + 1 = i
    induction ps generalizing i with
    | nil => rfl
    | cons p ps ih => simp only [List.zipIdx_cons, List.map_cons, Function.comp_def]; rw [← ih (i + 1)]; rfl
  · funext f ci co r
    simp only [List.map_cons, List.map_map, Function.comp_def]
    rfl

/-- Facts about the inputs of the new Cat. -/
structure NewOk (T : ℕ) (ds l : List Circ) : Prop where
  ne : l ≠ []
  fine : ∀ c ∈ l, Fine T c
  spine : ∀ c ∈ l, SpineOk c
  check : check2 l = .ok ()
  size : (l.map Circ.size).sum ≤ (ds.map Circ.size).sum
  C : (l.map Circ.C).sum = (ds.map Circ.C).sum
  head : ∀ a t b u, ds = a :: t → l = b :: u →
    F b = F a ∧ scope b = scope a ∧ (den b).map Feat.scope = (den a).map Feat.scope
  val : ∀ a t, ds = a :: t → ∀ f < F a, ∀ x r ch, catCh (l.map (blk f x r)) ch = catCh (ds.map (blk f x r)) ch

theorem query_of_check2 {l : List Circ} (h : check2 l = .ok ()) :
    ∀ a ∈ l, ∀ b ∈ l, ∀ v, v ∈ (scope a).query ↔ v ∈ (scope b).query := by
  intro a ha b hb
  have := (Scope.C03_allEqual _).1 (check2_ok h).2.1 (scope a) (List.mem_map_of_mem ha) (scope b) (List.mem_map_of_mem hb)
  exact ((Scope.pyEq_iff _ _).1 this).1

theorem newInputs_ok {T : ℕ} {ds : List Circ} (hne : ds ≠ []) (hf : ∀ c ∈ ds, Fine T c) (hs : ∀ c ∈ ds, SpineOk c)
    (hc : check2 ds = .ok ()) : NewOk T ds (newInputs ds) := by
  unfold newInputs
  split
  · rename_i ls hls
    have hm := allSome_eq hls
    have hds : ds = ls.map catL := by
      clear hne hc hls
      induction ds generalizing ls with
      | nil => simpa using hm
      | cons d ds ih =>
        cases ls with
        | nil => simp at hm
        | cons l ls =>
          simp only [List.map_cons, List.cons.injEq] at hm
          rw [List.map_cons]
          congr 1
          · have h1 := hs d (by simp)
            have h2 := hm.1
            cases d with
            | cat1 n cs => exact absurd h1 id
            | cat2 n cs =>
              simp only [catInputs, Option.some.injEq] at h2
              rw [← h2]; exact cat2_eq_catL cs
            | leaf => simp [catInputs] at h2
            | prod => simp [catInputs] at h2
            | sum => simp [catInputs] at h2
          · exact ih (fun c h => hf c (by simp [h])) (fun c h => hs c (by simp [h])) ls hm.2
    clear hm hls
    have hfl : ∀ l ∈ ls, (∀ c ∈ l, Fine T c) ∧ check2 l = .ok () := fun l hl =>
      fine_catL.1 (hf (catL l) (by rw [hds]; exact List.mem_map_of_mem hl))
    have hsl : ∀ l ∈ ls, ∀ c ∈ l, SpineOk c := fun l hl =>
      spine_catL.1 (hs (catL l) (by rw [hds]; exact List.mem_map_of_mem hl))
    have hnl : ∀ l ∈ ls, l ≠ [] := fun l hl => (check2_ok (hfl l hl).2).2.2
    have hFl : ∀ l ∈ ls, ∀ c ∈ l, F c = F (catL l) := by
      intro l hl c hcl
      obtain ⟨a, t, rfl⟩ := List.exists_cons_of_ne_nil (hnl l hl)
      rw [F_catL]
      exact (check2_ok (hfl _ hl).2).1 _ hcl _ (by simp)
    have hql : ∀ l ∈ ls, ∀ c ∈ l, ∀ v, v ∈ (scope c).query ↔ v ∈ (scope (catL l)).query := by
      intro l hl c hcl v
      obtain ⟨a, t, rfl⟩ := List.exists_cons_of_ne_nil (hnl l hl)
      rw [scope_catL]
      exact query_of_check2 (hfl _ hl).2 _ hcl _ (by simp) v
    obtain ⟨l0, ls0, hl0⟩ : ∃ l0 ls0, ls = l0 :: ls0 := by
      cases ls with
      | nil => exact absurd hds hne
      | cons a b => exact ⟨a, b, rfl⟩
    obtain ⟨b0, u0, hb0⟩ := List.exists_cons_of_ne_nil (hnl l0 (by rw [hl0]; simp))
    have hmem0 : l0 ∈ ls := by rw [hl0]; simp
    have hFeq : ∀ l ∈ ls, F (catL l) = F (catL l0) := fun l hl =>
      (check2_ok hc).1 _ (by rw [hds]; exact List.mem_map_of_mem hl) _ (by rw [hds]; exact List.mem_map_of_mem hmem0)
    refine ⟨?_, ?_, ?_, ?_, ?_, ?_, ?_, ?_⟩
    · rw [hl0, hb0]; simp
    · intro c hcm
      obtain ⟨l, hl, hcl⟩ := List.mem_flatten.1 hcm
      exact (hfl l hl).1 c hcl
    · intro c hcm
      obtain ⟨l, hl, hcl⟩ := List.mem_flatten.1 hcm
      exact hsl l hl c hcl
    · refine check2_of (K := F (catL l0)) (by rw [hl0, hb0]; simp) ?_ ?_ ?_
      · intro m hm
        obtain ⟨l, hl, hcl⟩ := List.mem_flatten.1 hm
        rw [hFl l hl m hcl, hFeq l hl]
      · intro m hm
        obtain ⟨l, hl, hcl⟩ := List.mem_flatten.1 hm
        exact (scope_facts ((hfl l hl).1 m hcl).1).2.1
      · intro a ha b hb v
        obtain ⟨l, hl, hcl⟩ := List.mem_flatten.1 ha
        obtain ⟨l', hl', hcl'⟩ := List.mem_flatten.1 hb
        rw [hql l hl a hcl, hql l' hl' b hcl']
        exact query_of_check2 hc _ (by rw [hds]; exact List.mem_map_of_mem hl) _
          (by rw [hds]; exact List.mem_map_of_mem hl') v
    · rw [hds, List.map_map, List.map_flatten]
      clear * -
      induction ls with
      | nil => simp
      | cons l ls ih =>
        simp only [List.map_cons, List.flatten_cons, List.sum_append, List.sum_cons, Function.comp_apply, size_catL]
        omega
    · rw [hds, List.map_map, List.map_flatten]
      clear * -
      induction ls with
      | nil => simp
      | cons l ls ih =>
        simp only [List.map_cons, List.flatten_cons, List.sum_append, List.sum_cons, Function.comp_apply, C_catL]
        rw [ih]
    · intro a t b u ha hb
      rw [hds, hl0, hb0, List.map_cons] at ha
      rw [hl0, hb0] at hb
      simp only [List.flatten_cons, List.cons_append, List.cons.injEq] at ha hb
      obtain ⟨rfl, -⟩ := ha
      obtain ⟨rfl, -⟩ := hb
      exact ⟨F_catL.symm, scope_catL.symm, fscopes_catL.symm⟩
    · intro a t ha f hfa x r ch
      have hFa : ∀ l ∈ ls, f < F (catL l) := by
        intro l hl
        rw [hFeq l hl]
        rw [hds, hl0, List.map_cons] at ha
        simp only [List.cons.injEq] at ha
        rw [ha.1]; exact hfa
      rw [hds, List.map_map, List.map_flatten]
      clear * - hFa hnl
      induction ls generalizing ch with
      | nil => rfl
      | cons l ls ih =>
        simp only [List.map_cons, List.flatten_cons, Function.comp_apply]
        rw [catCh_append]
        have e : ((l.map (blk f x r)).map Prod.fst).sum = C (catL l) := by
          rw [C_catL, List.map_map]; rfl
        rw [e]
        show _ = catCh ((C (catL l), fun k => featAt (den (catL l)) f x r k) :: _) ch
        simp only [catCh]
        split
        · rw [featAt_catL (hnl l (by simp)) (hFa l (by simp))]
        · exact ih (fun l h => hnl l (by simp [h])) _ (fun l h => hFa l (by simp [h]))
  · refine ⟨hne, hf, hs, hc, le_rfl, rfl, ?_, fun _ _ _ _ _ _ _ _ => rfl⟩
    intro a t b u ha hb
    rw [ha] at hb
    simp only [List.cons.injEq] at hb
    obtain ⟨rfl, -⟩ := hb
    exact ⟨rfl, rfl, rfl⟩

theorem catW_ones {α : Type*} (ps : List α) (w : ℕ → ℝ) :
    ∀ i ch, ch < ps.length → catW ((ps.zipIdx i).map fun q => (1, fun _ => w q.2)) ch = w (i + ch) := by
  induction ps with
  | nil => intro i ch h; simp at h
  | cons p ps ih =>
    intro i ch h
    simp only [List.zipIdx_cons, List.map_cons, catW]
    split
    · have : ch = 0 := by omega
      subst this; rfl
    · rw [ih (i + 1) (ch - 1) (by simp at h; omega)]; congr 1; omega

theorem zipIdx_map_fst {α β : Type*} (ps : List α) (g : α → β) (i : ℕ) :
    (ps.zipIdx i).map (fun q => g q.1) = ps.map g := by
  induction ps generalizing i with
  | nil => rfl
  | cons p ps ih => simp [List.zipIdx_cons, ih]

theorem sum_ones {α : Type*} (l : List α) : (l.map fun _ => 1).sum = l.length := by
  induction l with
  | nil => rfl
  | cons a l ih => rw [List.map_cons, List.sum_cons, ih, List.length_cons]; omega

theorem softmax_logL {n : ℕ} {p : ℕ → ℝ} (h0 : ∀ i < n, 0 < p i) (h1 : ∑ i ∈ Finset.range n, p i = 1) {i : ℕ} (hi : i < n) :
    softmax n (fun i => logL (p i)) i = p i := by
  rw [softmax_eq, expL_logL (h0 i hi).le, Finset.sum_congr rfl fun j hj => expL_logL (h0 j (Finset.mem_range.1 hj)).le, h1,
    div_one]

theorem weight_pos {c : Circ} {θ} {f ci co r : ℕ} (hci : ci < C c) (h : θ f ci co r ≠ ⊥) : 0 < weight c θ f ci co r :=
  softmax_pos hci h

/-- One flattening succeeds, makes the circuit smaller and changes nothing that can be observed. -/
theorem flattenSum_ok {T : ℕ} {l : List Circ} {Co : ℕ} {θ} {p : Part} {ps : List Part}
    (hfine : Fine T (sum (catL l) Co T θ)) (hsp : SpineOk (catL l)) (hl : l = (p :: ps).map ofPart)
    (hall : allSome sumParts l = some (p :: ps)) :
    ∃ c', flattenSum (catL l) Co T θ = .ok (some c') ∧ size c' < size (sum (catL l) Co T θ) ∧
      Fine T c' ∧ Same T (sum (catL l) Co T θ) c' := by
  obtain ⟨ha, hr, hfin, hpr⟩ := hfine
  have hcl : Fine T (catL l) := ⟨ha.1, hr.1, hfin.1, hpr.1⟩
  obtain ⟨hel, hck⟩ := fine_catL.1 hcl
  have hsl := spine_catL.1 hsp
  have hp : ∀ q ∈ p :: ps, Fine T q.1 ∧ SpineOk q.1 ∧ q.2.1 = 1 ∧ q.2.2.1 = T ∧ F q.1 = F (catL l) ∧
      (∀ f < F q.1, ∀ ci < C q.1, ∀ r < T, q.2.2.2 f ci 0 r ≠ ⊥) ∧
      (∀ f < F q.1, ∀ r < T, ∃ ci < C q.1, q.2.2.2 f ci 0 r ≠ ⊥) := by
    intro q hq
    have hm : ofPart q ∈ l := by rw [hl]; exact List.mem_map_of_mem hq
    obtain ⟨a1, a2, a3, a4⟩ := hel _ hm
    have hq1 : q.2.1 = 1 := (hsl _ hm).1
    have hqT : q.2.2.1 = T := a2.2
    refine ⟨⟨a1.1, a2.1, a3.1, a4.1⟩, (hsl _ hm).2, hq1, hqT, ?_, ?_, ?_⟩
    · have := cat2_F (cs := l.get) (by rw [ofFn_get]; exact hck)
      obtain ⟨i, hi⟩ := List.get_of_mem hm
      have h2 := this i
      rw [hi] at h2
      exact h2
    · intro f hf ci hci r hr
      exact a3.2 f hf ci hci 0 (by omega) r (by omega)
    · intro f hf r hr
      exact a1.2.2 f hf 0 (by omega) r (by omega)
  set ds := (p :: ps).map fun q => q.1 with hds
  have hckds : check2 ds = .ok () := by
    rw [← hck, hl]
    refine check2_congr ?_ ?_
    · rw [hds, List.map_map, List.map_map]; rfl
    · rw [hds, List.map_map, List.map_map]; rfl
  have hmemds : ∀ c ∈ ds, ∃ q ∈ p :: ps, c = q.1 := by
    intro c hc
    obtain ⟨q, hq, rfl⟩ := List.mem_map.1 hc
    exact ⟨q, hq, rfl⟩
  have hN := newInputs_ok (T := T) (ds := ds) (by simp [hds])
    (fun c hc => by obtain ⟨q, hq, rfl⟩ := hmemds c hc; exact (hp q hq).1)
    (fun c hc => by obtain ⟨q, hq, rfl⟩ := hmemds c hc; exact (hp q hq).2.1) hckds
  set L := newInputs ds with hL
  obtain ⟨b, u, hbu⟩ := List.exists_cons_of_ne_nil hN.ne
  obtain ⟨hbF, hbs, hbd⟩ := hN.head p.1 (ps.map fun q => q.1) b u rfl hbu
  have hFp : F p.1 = F (catL l) := (hp p (by simp)).2.2.2.2.1
  have hFL : F (catL L) = F (catL l) := by rw [hbu, F_catL, hbF, hFp]
  have hCl : C (catL l) = (p :: ps).length := by
    rw [C_catL, hl, List.map_map]
    have : ∀ qs : List Part, (∀ q ∈ qs, q.2.1 = 1) → (qs.map (C ∘ ofPart)).sum = qs.length := by
      intro qs h
      induction qs with
      | nil => rfl
      | cons q qs ih =>
        rw [List.map_cons, List.sum_cons, ih fun r hr => h r (by simp [hr]), List.length_cons]
        have := h q (by simp)
        show q.2.1 + _ = _
        omega
    exact this _ fun q hq => (hp q hq).2.2.1
  set cur := weightsOf (catL l) Co T θ with hcur
  have hsc := scaleAll_eq cur (p :: ps) (fun q hq => ⟨(hp q hq).2.2.2.2.1, (hp q hq).2.2.1, (hp q hq).2.2.2.1⟩) 0
    (by rw [zero_add]; exact hCl.symm.le)
  -- the new weights
  set W : ℕ → ℕ → ℕ → ℕ → ℝ := fun f ci co r =>
    catW (((p :: ps).zipIdx 0).map fun q => (C q.1.1, fun k => (scaledW cur q).val f k co r)) ci with hW
  have hCsum : ((p :: ps).map fun q => C q.1).sum = C (catL L) := by
    rw [C_catL, hN.C, hds, List.map_map]; rfl
  have hblocks : ∀ f co r, ((((p :: ps).zipIdx 0).map fun q =>
      (C q.1.1, fun k => (scaledW cur q).val f k co r)).map fun t => t.1).sum = C (catL L) := by
    intro f co r
    rw [List.map_map, ← hCsum]
    exact congrArg List.sum (zipIdx_map_fst (p :: ps) (fun q => C q.1) 0)
  have hzip : ∀ q ∈ (p :: ps).zipIdx 0, q.1 ∈ p :: ps ∧ q.2 < C (catL l) := by
    rintro ⟨q, j⟩ hq
    have := List.mem_zipIdx hq
    refine ⟨by rw [this.2.2]; exact List.getElem_mem _, by rw [hCl]; omega⟩
  have hlogit : ∀ f < F (catL l), ∀ ci < C (catL l), ∀ co < Co, ∀ r < T, θ f ci co r ≠ ⊥ := hfin.2
  have hscval : ∀ q ∈ (p :: ps).zipIdx 0, ∀ f < F (catL l), ∀ co < Co, ∀ r < T, ∀ k, (scaledW cur q).val f k co r =
      weight q.1.1 q.1.2.2.2 f k 0 r * weight (catL l) θ f q.2 co r := by
    intro q hq f hf co hco r hr k
    show weight q.1.1 q.1.2.2.2 (bc (F (catL l)) f) k 0 (bc T r) *
      weight (catL l) θ (bc (F (catL l)) f) q.2 (bc Co co) (bc T r) = _
    rw [bc_self hf, bc_self hr, bc_self hco]
  have hpos : ∀ f < F (catL l), ∀ ci < C (catL L), ∀ co < Co, ∀ r < T, 0 < W f ci co r := by
    intro f hf ci hci co hco r hr
    refine catW_pos _ ?_ ci (by rw [hblocks]; exact hci)
    intro t ht k hk
    obtain ⟨q, hq, rfl⟩ := List.mem_map.1 ht
    show 0 < (scaledW cur q).val f k co r
    obtain ⟨h1, h2⟩ := hzip q hq
    rw [hscval q hq f hf co hco r hr]
    exact mul_pos (weight_pos hk ((hp _ h1).2.2.2.2.2.1 f (by rw [(hp _ h1).2.2.2.2.1]; exact hf) k hk r hr))
      (weight_pos h2 (hlogit f hf _ h2 co hco r hr))
  have hone : ∀ f < F (catL l), ∀ co < Co, ∀ r < T, ∑ ci ∈ Finset.range (C (catL L)), W f ci co r = 1 := by
    intro f hf co hco r hr
    rw [← hblocks f co r]
    simp only [hW]
    rw [sum_catW, List.map_map]
    have e1 : ((p :: ps).zipIdx 0).map ((fun t : ℕ × (ℕ → ℝ) => ∑ k ∈ Finset.range t.1, t.2 k) ∘ fun q =>
        (C q.1.1, fun k => (scaledW cur q).val f k co r)) =
        ((p :: ps).zipIdx 0).map fun q => ∑ k ∈ Finset.range 1, weight (catL l) θ f q.2 co r := by
      refine List.map_congr_left fun q hq => ?_
      obtain ⟨h1, h2⟩ := hzip q hq
      show ∑ k ∈ Finset.range (C q.1.1), (scaledW cur q).val f k co r = _
      rw [Finset.sum_congr rfl fun k _ => hscval q hq f hf co hco r hr k, ← Finset.sum_mul]
      have : ∑ k ∈ Finset.range (C q.1.1), weight q.1.1 q.1.2.2.2 f k 0 r = 1 :=
        sum_softmax ((hp _ h1).2.2.2.2.2.2 f (by rw [(hp _ h1).2.2.2.2.1]; exact hf) r hr)
      rw [this]; simp
    rw [e1]
    have e2 := sum_catW (((p :: ps).zipIdx 0).map fun q => (1, fun _ : ℕ => weight (catL l) θ f q.2 co r))
    rw [List.map_map, List.map_map] at e2
    have e3 : (((p :: ps).zipIdx 0).map ((fun t : ℕ × (ℕ → ℝ) => t.1) ∘ fun q =>
        (1, fun _ : ℕ => weight (catL l) θ f q.2 co r))).sum = C (catL l) := by
      rw [hCl]
      have := zipIdx_map_fst (p :: ps) (fun _ => (1 : ℕ)) 0
      have h2 : ((p :: ps).zipIdx 0).map ((fun t : ℕ × (ℕ → ℝ) => t.1) ∘ fun q =>
        (1, fun _ : ℕ => weight (catL l) θ f q.2 co r)) = (p :: ps).map fun _ => 1 := this
      rw [h2, sum_ones]
    rw [e3] at e2
    rw [show (fun q : Part × ℕ => ∑ k ∈ Finset.range 1, weight (catL l) θ f q.2 co r) =
      ((fun t : ℕ × (ℕ → ℝ) => ∑ k ∈ Finset.range t.1, t.2 k) ∘ fun q : Part × ℕ =>
        (1, fun _ : ℕ => weight (catL l) θ f q.2 co r)) from rfl, ← e2,
      Finset.sum_congr rfl fun ch hch => catW_ones (p :: ps) (fun j => weight (catL l) θ f j co r) 0 ch
        (by rw [← hCl]; exact Finset.mem_range.1 hch)]
    simp only [zero_add]
    exact sum_softmax (ha.2.2 f hf co hco r hr)
  have hset : setChecked ⟨F (catL l), C (catL L), Co, T, W⟩ = .ok fun f ci co r => logL (W f ci co r) := by
    unfold setChecked
    rw [if_neg (not_not.2 hpos), if_neg (not_not.2 fun f hf co hco r hr => by
      show CloseToOne (∑ ci ∈ Finset.range (C (catL L)), W f ci co r)
      rw [hone f hf co hco r hr]; unfold CloseToOne; norm_num)]
  refine ⟨sum (catL L) Co T fun f ci co r => logL (W f ci co r), ?_, ?_, ?_, ?_⟩
  · unfold flattenSum
    have h1 : catInputs (catL l) = some l := by simp only [catL, catInputs]; rw [ofFn_get]
    rw [h1]
    simp only [hall]
    have h2 := concatCi_scaled cur p ps
    simp only [bind, Except.bind]
    rw [hsc]
    simp only
    rw [h2]
    simp only
    rw [show ((p :: ps).map fun q => q.1) = ds from rfl, ← hL]
    have h3 : mkCat 2 L = .ok (catL L) := by
      simp [mkCat, hN.check, bind, Except.bind, pure, Except.pure, catL]
    rw [h3]
    simp only
    rw [hCsum]
    have h4 : setChecked ⟨cur.Fw, C (catL L), cur.Co, cur.R, fun f ci co r =>
        catW (((p :: ps).zipIdx 0).map fun q => (C q.1.1, fun k => (scaledW cur q).val f k co r)) ci⟩ =
        .ok fun f ci co r => logL (W f ci co r) := hset
    rw [h4]
    rfl
  · show 1 + size (catL L) < 1 + size (catL l)
    rw [size_catL, size_catL, hl]
    have h1 := hN.size
    have h2 : (ds.map size).sum < (((p :: ps).map ofPart).map size).sum := by
      rw [hds, List.map_map, List.map_map]
      simp only [List.map_cons, List.sum_cons, Function.comp_apply]
      have : ∀ qs : List Part, (qs.map (size ∘ fun q => q.1)).sum ≤ (qs.map (size ∘ ofPart)).sum := by
        intro qs
        induction qs with
        | nil => simp
        | cons q qs ih =>
          simp only [List.map_cons, List.sum_cons, Function.comp_apply]
          have : size (ofPart q) = 1 + size q.1 := rfl
          simp only [Function.comp_def] at ih ⊢
          omega
      have h5 := this ps
      have : size (ofPart p) = 1 + size p.1 := rfl
      omega
    omega
  · have hcf : Fine T (catL L) := fine_catL.2 ⟨hN.fine, hN.check⟩
    refine ⟨⟨hcf.1, ha.2.1, ?_⟩, ⟨hcf.2.1, rfl⟩, ⟨hcf.2.2.1, ?_⟩, hcf.2.2.2, Or.inl (spine_catL.2 hN.spine)⟩
    · intro f hf co hco r hr
      rw [hFL] at hf
      have hC0 : 0 < C (catL L) := by
        by_contra hcon
        have h0 : C (catL L) = 0 := by omega
        have := hone f hf co hco r hr
        rw [h0] at this
        simp at this
      refine ⟨0, hC0, ?_⟩
      rw [← expL_pos_iff, expL_logL (hpos f hf 0 hC0 co hco r hr).le]
      exact hpos f hf 0 hC0 co hco r hr
    · intro f hf ci hci co hco r hr
      rw [hFL] at hf
      rw [← expL_pos_iff, expL_logL (hpos f hf ci hci co hco r hr).le]
      exact hpos f hf ci hci co hco r hr
  · refine ⟨hFL, rfl, ?_, ?_, ?_⟩
    · show scope (catL L) = scope (catL l)
      rw [hbu, scope_catL, hbs, hl, List.map_cons, scope_catL]; rfl
    · rw [map_scope_sum, map_scope_sum, hbu, fscopes_catL, hbd, hl, List.map_cons, fscopes_catL]
      exact (map_scope_sum _ _ _ _).symm
    · intro f hf co hco x r hρ
      replace hf : f < F (catL l) := hf
      replace hco : co < Co := hco
      have hfp : f < F p.1 := by rw [hFp]; exact hf
      apply expL_injective
      rw [expL_featAt_sum (by rw [hFL]; exact hf), expL_featAt_sum hf]
      generalize hρd : bc T r = ρ at hρ ⊢
      have e1 : ∀ ci ∈ Finset.range (C (catL L)),
          weight (catL L) (fun f ci co r => logL (W f ci co r)) f ci co ρ * expL (featAt (den (catL L)) f x r ci) =
          W f ci co ρ * expL (catCh (ds.map (blk f x r)) ci) := by
        intro ci hci
        rw [show weight (catL L) (fun f ci co r => logL (W f ci co r)) f ci co ρ = W f ci co ρ from
          softmax_logL (p := fun i => W f i co ρ) (fun i hi => hpos f hf i hi co hco ρ hρ) (hone f hf co hco ρ hρ)
            (Finset.mem_range.1 hci), featAt_catL hN.ne (by rw [hFL]; exact hf),
          hN.val p.1 (ps.map fun q => q.1) rfl f hfp]
      rw [Finset.sum_congr rfl e1]
      have k1 := sum_catW_catCh (((p :: ps).zipIdx 0).map fun q =>
        (C q.1.1, (fun k => (scaledW cur q).val f k co ρ), fun k => featAt (den q.1.1) f x r k))
      simp only [List.map_map, Function.comp_def] at k1
      have k2 : ((p :: ps).zipIdx 0).map (fun q => (C q.1.1, fun k => featAt (den q.1.1) f x r k)) = ds.map (blk f x r) := by
        rw [hds, List.map_map]
        exact zipIdx_map_fst (p :: ps) (fun q => blk f x r q.1) 0
      have k3 : (((p :: ps).zipIdx 0).map fun q => C q.1.1).sum = C (catL L) := by
        rw [← hCsum]; exact congrArg List.sum (zipIdx_map_fst (p :: ps) (fun q => C q.1) 0)
      rw [k2, k3] at k1
      refine k1.trans ?_
      have m1 := sum_catW_catCh (((p :: ps).zipIdx 0).map fun q =>
        (1, (fun _ => weight (catL l) θ f q.2 co ρ), fun k => featAt (den (ofPart q.1)) f x r k))
      simp only [List.map_map, Function.comp_def] at m1
      have m2 : ((p :: ps).zipIdx 0).map (fun q => (1, fun k => featAt (den (ofPart q.1)) f x r k)) =
          l.map (blk f x r) := by
        rw [hl, List.map_map, ← zipIdx_map_fst (p :: ps) (blk f x r ∘ ofPart) 0]
        refine List.map_congr_left fun q hq => ?_
        have := (hp _ (hzip q hq).1).2.2.1
        show _ = (q.1.2.1, _)
        rw [this]
      have m3 : (((p :: ps).zipIdx 0).map fun _ => 1).sum = C (catL l) := by
        rw [hCl, sum_ones, List.length_zipIdx]
      rw [m2, m3] at m1
      rw [Finset.sum_congr rfl fun ci hci => by
        rw [featAt_catL (by rw [hl]; simp) hf, ← zero_add ci,
          ← catW_ones (p :: ps) (fun j => weight (catL l) θ f j co ρ) 0 ci (by rw [← hCl]; exact Finset.mem_range.1 hci),
          zero_add], m1]
      refine congrArg List.sum (List.map_congr_left fun q hq => ?_)
      obtain ⟨h1, h2⟩ := hzip q hq
      rw [Finset.sum_range_one]
      show _ = _ * expL (featAt (den (sum q.1.1 q.1.2.1 q.1.2.2.1 q.1.2.2.2)) f x r 0)
      rw [expL_featAt_sum (by rw [(hp _ h1).2.2.2.2.1]; exact hf), (hp _ h1).2.2.2.1, hρd, Finset.mul_sum]
      refine Finset.sum_congr rfl fun k _ => ?_
      show (scaledW cur q).val f k co ρ * _ = _
      rw [hscval q hq f hf co hco ρ hρ]
      ring

theorem flattenSum_cases {T : ℕ} {c : Circ} {Co R : ℕ} {θ} (hfine : Fine T (sum c Co R θ)) :
    flattenSum c Co R θ = .ok none ∨ ∃ c', flattenSum c Co R θ = .ok (some c') ∧ size c' < size (sum c Co R θ) ∧
      Fine T c' ∧ Same T (sum c Co R θ) c' := by
  have hR : R = T := hfine.2.1.2
  subst hR
  cases c with
  | leaf q C R d => exact Or.inl rfl
  | prod c => exact Or.inl rfl
  | sum c Co R θ => exact Or.inl rfl
  | cat1 n cs =>
    left
    rcases hfine.2.2.2.2 with h | ⟨i, hi⟩
    · exact absurd h id
    · simp only [flattenSum, catInputs]
      rw [allSome_none (List.mem_ofFn.2 ⟨i, rfl⟩) hi]
  | cat2 n cs =>
    rw [cat2_eq_catL] at hfine ⊢
    have hsp : SpineOk (catL (List.ofFn cs)) := by
      rcases hfine.2.2.2.2 with h | h
      · exact h
      · exact absurd h id
    generalize List.ofFn cs = l at hfine hsp
    have h1 : catInputs (catL l) = some l := by simp only [catL, catInputs]; rw [ofFn_get]
    rcases hall : allSome sumParts l with _ | ps
    · left; unfold flattenSum; rw [h1]; simp only [hall]
    · cases ps with
      | nil => left; unfold flattenSum; rw [h1]; simp only [hall]
      | cons p ps => exact Or.inr (flattenSum_ok hfine hsp (allSome_sumParts hall) hall)

theorem seqFin_ok {n : ℕ} {g : Fin n → Except Exc Circ} {cs : Fin n → Circ} (h : ∀ i, g i = .ok (cs i)) :
    seqFin g = .ok cs := by
  induction n with
  | zero => simp only [seqFin]; congr 1; funext i; exact i.elim0
  | succ n ih =>
    simp only [seqFin, h 0, bind, Except.bind, pure, Except.pure]
    rw [ih (cs := fun i => cs i.succ) fun i => h i.succ]
    simp only
    congr 1
    funext i
    refine Fin.cases rfl (fun j => rfl) i

theorem size_pos (c : Circ) : 0 < size c := by cases c <;> simp [size] <;> omega

theorem size_le_ofFn {n : ℕ} (cs : Fin n → Circ) (i : Fin n) : size (cs i) ≤ (List.ofFn fun i => size (cs i)).sum :=
  List.single_le_sum (fun _ _ => Nat.zero_le _) _ (List.mem_ofFn.2 ⟨i, rfl⟩)

theorem prune_main (T : ℕ) : ∀ k c, size c ≤ k → Fine T c →
    ∃ c', prune k c = .ok c' ∧ Accepted c' ∧ SameReps T c' ∧ FiniteLogits c' ∧ Same T c c' := by
  intro k
  induction k with
  | zero => intro c h; exact absurd (size_pos c) (by omega)
  | succ k ih =>
    intro c hk hfine
    cases c with
    | leaf q C R d => exact ⟨_, by rw [prune], hfine.1, hfine.2.1, hfine.2.2.1, Same.refl _ _⟩
    | prod c =>
      obtain ⟨c', h1, h2, h3, h4, h5⟩ := ih c (by simp [size] at hk; omega) hfine
      refine ⟨prod c', ?_, h2, h3, h4, rfl, h5.C, h5.scope, ?_, ?_⟩
      · simp [prune, h1, bind, Except.bind, pure, Except.pure]
      · simp only [den, List.map_cons, List.map_nil]
        rw [h5.fscope]
      · intro f hf ch hch x r hr
        have hf0 : f = 0 := by simpa [F] using hf
        subst hf0
        rw [featAt_prod, featAt_prod, h5.F]
        exact Finset.sum_congr rfl fun f hf => h5.val f (Finset.mem_range.1 hf) ch hch x r hr
    | cat1 n cs =>
      obtain ⟨⟨ha, hck⟩, hs, hf, hp⟩ := hfine
      have hI : ∀ i, ∃ c', prune k (cs i) = .ok c' ∧ Accepted c' ∧ SameReps T c' ∧ FiniteLogits c' ∧ Same T (cs i) c' :=
        fun i => ih (cs i) (by have := size_le_ofFn cs i; simp [size] at hk; omega) ⟨ha i, hs i, hf i, hp i⟩
      choose cs' h1 h2 h3 h4 h5 using hI
      have hoff : ∀ i, offF cs' i = offF cs i := by
        intro i; unfold offF; congr 3; funext j; exact (h5 j).F
      have hF : F (cat1 n cs') = F (cat1 n cs) := by simp only [F, (h5 _).F]
      have hC : C (cat1 n cs') = C (cat1 n cs) := by simp only [C, (h5 _).C]
      refine ⟨cat1 n cs', ?_, ⟨h2, ?_⟩, h3, h4, hF, hC, ?_, ?_, ?_⟩
      · rw [prune, seqFin_ok h1]; rfl
      · rw [← hck]
        refine check1_congr ?_ ?_ <;> rw [List.map_ofFn, List.map_ofFn] <;> congr 1 <;> funext i
        · exact (h5 i).C
        · exact (h5 i).scope
      · simp only [scope, (h5 _).scope]
      · simp only [den, List.map_flatten, List.map_ofFn, Function.comp_def, (h5 _).fscope]
      · intro f hf' ch hch x r hr
        obtain ⟨i, j, hj, rfl⟩ := exists_cat1_index hf'
        rw [featAt_cat1 i hj, ← hoff i, featAt_cat1 i (by rw [(h5 i).F]; exact hj)]
        exact (h5 i).val j hj ch (by rw [cat1_C hck i]; exact hch) x r hr
    | cat2 n cs =>
      obtain ⟨⟨ha, hck⟩, hs, hf, hp⟩ := hfine
      have hI : ∀ i, ∃ c', prune k (cs i) = .ok c' ∧ Accepted c' ∧ SameReps T c' ∧ FiniteLogits c' ∧ Same T (cs i) c' :=
        fun i => ih (cs i) (by have := size_le_ofFn cs i; simp [size] at hk; omega) ⟨ha i, hs i, hf i, hp i⟩
      choose cs' h1 h2 h3 h4 h5 using hI
      have hoff : ∀ i, offC cs' i = offC cs i := by
        intro i; unfold offC; congr 3; funext j; exact (h5 j).C
      have hF : F (cat2 n cs') = F (cat2 n cs) := by simp only [F, (h5 _).F]
      have hC : C (cat2 n cs') = C (cat2 n cs) := by simp only [C, (h5 _).C]
      have hn : 0 < n := by
        rcases Nat.eq_zero_or_pos n with rfl | h
        · simp [check2, Scope.allEqual, bind, Except.bind, throw, throwThe, MonadExceptOf.throw, pure, Except.pure] at hck
        · exact h
      refine ⟨cat2 n cs', ?_, ⟨h2, ?_⟩, h3, h4, hF, hC, ?_, ?_, ?_⟩
      · rw [prune, seqFin_ok h1]; rfl
      · rw [← hck]
        refine check2_congr ?_ ?_ <;> rw [List.map_ofFn, List.map_ofFn] <;> congr 1 <;> funext i
        · exact (h5 i).F
        · exact (h5 i).scope
      · simp only [scope, (h5 _).scope]
      · rw [map_scope_cat2 _ hn, map_scope_cat2 _ hn, (h5 _).fscope]
      · intro f hf' ch hch x r hr
        obtain ⟨i, j, hj, rfl⟩ := exists_cat2_index hch
        rw [featAt_cat2 i hf' hj, ← hoff i, featAt_cat2 i (by rw [hF]; exact hf') (by rw [(h5 i).C]; exact hj)]
        exact (h5 i).val f (by rw [cat2_F hck i]; exact hf') j hj x r hr
    | sum c Co R θ =>
      rcases flattenSum_cases hfine with hfl | ⟨c', hfl, hsz, hf', hsame⟩
      · obtain ⟨ha, hs, hf, hp⟩ := hfine
        obtain ⟨c', h1, h2, h3, h4, h5⟩ := ih c (by simp [size] at hk; omega) ⟨ha.1, hs.1, hf.1, hp.1⟩
        refine ⟨sum c' Co R θ, ?_, ⟨h2, ha.2.1, ?_⟩, ⟨h3, hs.2⟩, ⟨h4, ?_⟩, h5.F, rfl, h5.scope, ?_, ?_⟩
        · rw [prune, hfl]; simp [bind, Except.bind, pure, Except.pure, h1]
        · rw [h5.F, h5.C]; exact ha.2.2
        · rw [h5.F, h5.C]; exact hf.2
        · rw [map_scope_sum, map_scope_sum, h5.fscope]
        · intro f hf1 co hco x r hr
          replace hf1 : f < F c := hf1
          apply expL_injective
          rw [expL_featAt_sum hf1, expL_featAt_sum (by rw [h5.F]; exact hf1), h5.C]
          refine Finset.sum_congr rfl fun ci hci => ?_
          rw [h5.val f hf1 ci (Finset.mem_range.1 hci) x r hr]
          unfold weight
          rw [h5.C]
      · obtain ⟨c'', h1, h2, h3, h4, h5⟩ := ih c' (by omega) hf'
        exact ⟨c'', by rw [prune, hfl]; simp only [bind, Except.bind, h1], h2, h3, h4, hsame.trans h5⟩

/-! ### C30 -/

/-- **C30.** On every accepted circuit with finite weights and a common number of repetitions in which nested Sums have
one output channel, `prune_sums` terminates without raising, and the rewritten circuit is accepted and has the same
shape, scopes and log-likelihoods for every row - with or without missing values -, feature, channel and
repetition. -/
theorem C30_prune_preserves {T : ℕ} {c : Circ} (ha : Accepted c) (hs : SameReps T c) (hf : FiniteLogits c)
    (hp : Prunable c) :
    ∃ c', prune (size c) c = .ok c' ∧ Accepted c' ∧ F c' = F c ∧ C c' = C c ∧ scope c' = scope c ∧
      ∀ f < F c, ∀ ch < C c, ∀ r < T, ∀ x, featAt (den c') f x r ch = featAt (den c) f x r ch := by
  obtain ⟨c', h1, h2, -, -, h5⟩ := prune_main T (size c) c le_rfl ⟨ha, hs, hf, hp⟩
  refine ⟨c', h1, h2, h5.F, h5.C, h5.scope, fun f hf ch hch r hr x => h5.val f hf ch hch x r ?_⟩
  rw [bc_self hr]; exact hr

/-- The result does not depend on the recursion limit once that is at least the number of modules. -/
theorem C30_terminates {T : ℕ} {c : Circ} (ha : Accepted c) (hs : SameReps T c) (hf : FiniteLogits c) (hp : Prunable c)
    {k : ℕ} (hk : size c ≤ k) : ∃ c', prune k c = .ok c' :=
  let ⟨c', h, _⟩ := prune_main T k c hk ⟨ha, hs, hf, hp⟩
  ⟨c', h⟩

/-! ### What pruning achieves -/

/-- No Sum of the circuit has a (non-empty) Cat consisting of Sums as its input. -/
def NoNested : Circ → Prop
  | leaf _ _ _ _ => True
  | prod c => NoNested c
  | cat1 _ cs => ∀ i, NoNested (cs i)
  | cat2 _ cs => ∀ i, NoNested (cs i)
  | sum c _ _ _ => NoNested c ∧ ∀ l, catInputs c = some l → l = [] ∨ ∃ a ∈ l, sumParts a = none

theorem seqFin_eq {n : ℕ} {g : Fin n → Except Exc Circ} {cs : Fin n → Circ} (h : seqFin g = .ok cs) :
    ∀ i, g i = .ok (cs i) := by
  induction n with
  | zero => intro i; exact i.elim0
  | succ n ih =>
    simp only [seqFin, bind, Except.bind, pure, Except.pure] at h
    split at h
    · simp at h
    · rename_i a ha
      split at h
      · simp at h
      · rename_i r hr
        simp only [Except.ok.injEq] at h
        subst h
        intro i
        refine Fin.cases ha (fun j => ih hr j) i

theorem flattenSum_none {c : Circ} {Co R : ℕ} {θ} (h : flattenSum c Co R θ = .ok none) :
    ∀ l, catInputs c = some l → l = [] ∨ ∃ a ∈ l, sumParts a = none := by
  intro l hl
  by_contra hcon
  push Not at hcon
  obtain ⟨hne, hall⟩ := hcon
  have : ∃ ps, allSome sumParts l = some ps ∧ ps.length = l.length := by
    clear hl hne h
    induction l with
    | nil => exact ⟨[], rfl, rfl⟩
    | cons a l ih =>
      obtain ⟨ps, h1, h2⟩ := ih fun b hb => hall b (by simp [hb])
      obtain ⟨p, hp⟩ := Option.ne_none_iff_exists'.1 (hall a (by simp))
      exact ⟨p :: ps, by simp [allSome, hp, h1], by simp [h2]⟩
  obtain ⟨ps, h1, h2⟩ := this
  unfold flattenSum at h
  rw [hl] at h
  simp only [h1] at h
  cases ps with
  | nil => exact hne (List.length_eq_zero_iff.1 h2.symm)
  | cons p ps =>
    simp only [bind, Except.bind, pure, Except.pure] at h
    split at h
    · simp at h
    split at h
    · simp at h
    split at h
    · simp at h
    split at h
    · simp at h
    simp at h

theorem flattenSum_some {c c' : Circ} {Co R : ℕ} {θ} (h : flattenSum c Co R θ = .ok (some c')) :
    sumParts c' ≠ none := by
  unfold flattenSum at h
  split at h
  · simp at h
  split at h
  · simp at h
  · simp at h
  simp only [bind, Except.bind, pure, Except.pure] at h
  split at h
  · simp at h
  split at h
  · simp at h
  split at h
  · simp at h
  split at h
  · simp at h
  simp only [Except.ok.injEq, Option.some.injEq] at h
  subst h
  simp [sumParts]

theorem prune_noNested_aux (k : ℕ) : ∀ c c', prune k c = .ok c' →
    NoNested c' ∧ (sumParts c' = none ↔ sumParts c = none) ∧
      ∀ l', catInputs c' = some l' → sumParts c = none →
        ∃ l, catInputs c = some l ∧ l.length = l'.length ∧
          ∀ i (h : i < l.length) (h' : i < l'.length), sumParts l[i] = none → sumParts l'[i] = none := by
  induction k with
  | zero =>
    intro c c' h
    cases c with
    | leaf q C R d =>
      simp only [prune, Except.ok.injEq] at h
      subst h
      exact ⟨trivial, Iff.rfl, fun l' hl' => by simp [catInputs] at hl'⟩
    | _ => simp [prune] at h
  | succ k ih =>
    intro c c' h
    have hcat : ∀ {n} (cs cs' : Fin n → Circ), seqFin (fun i => prune k (cs i)) = .ok cs' →
        (∀ i, NoNested (cs' i)) ∧ (List.ofFn cs).length = (List.ofFn cs').length ∧
          ∀ i (h : i < (List.ofFn cs).length) (h' : i < (List.ofFn cs').length),
            sumParts (List.ofFn cs)[i] = none → sumParts (List.ofFn cs')[i] = none := by
      intro n cs cs' hs
      have hs' := seqFin_eq hs
      refine ⟨fun i => (ih _ _ (hs' i)).1, by simp, fun i h1 h2 h3 => ?_⟩
      simp only [List.getElem_ofFn] at h3 ⊢
      exact ((ih _ _ (hs' _)).2.1).2 h3
    cases c with
    | leaf q C R d =>
      simp only [prune, Except.ok.injEq] at h
      subst h
      exact ⟨trivial, Iff.rfl, fun l' hl' => by simp [catInputs] at hl'⟩
    | prod c =>
      simp only [prune, bind, Except.bind, pure, Except.pure] at h
      split at h
      · simp at h
      · rename_i d hd
        simp only [Except.ok.injEq] at h
        subst h
        exact ⟨(ih _ _ hd).1, by simp [sumParts], fun l' hl' => by simp [catInputs] at hl'⟩
    | cat1 n cs =>
      simp only [prune, bind, Except.bind, pure, Except.pure] at h
      split at h
      · simp at h
      · rename_i d hd
        simp only [Except.ok.injEq] at h
        subst h
        obtain ⟨a1, a2, a3⟩ := hcat cs d hd
        refine ⟨a1, by simp [sumParts], fun l' hl' _ => ⟨List.ofFn cs, rfl, ?_⟩⟩
        simp only [catInputs, Option.some.injEq] at hl'
        subst hl'
        exact ⟨a2, a3⟩
    | cat2 n cs =>
      simp only [prune, bind, Except.bind, pure, Except.pure] at h
      split at h
      · simp at h
      · rename_i d hd
        simp only [Except.ok.injEq] at h
        subst h
        obtain ⟨a1, a2, a3⟩ := hcat cs d hd
        refine ⟨a1, by simp [sumParts], fun l' hl' _ => ⟨List.ofFn cs, rfl, ?_⟩⟩
        simp only [catInputs, Option.some.injEq] at hl'
        subst hl'
        exact ⟨a2, a3⟩
    | sum c Co R θ =>
      simp only [prune, bind, Except.bind, pure, Except.pure] at h
      split at h
      · simp at h
      · rename_i o ho
        cases o with
        | some d =>
          simp only at h
          obtain ⟨a1, a2, a3⟩ := ih d c' h
          have hd := flattenSum_some ho
          refine ⟨a1, by rw [a2]; exact ⟨fun h => absurd h hd, fun h => by simp [sumParts] at h⟩, fun l' hl' hs => by simp [sumParts] at hs⟩
        | none =>
          simp only at h
          split at h
          · simp at h
          · rename_i d hd
            simp only [Except.ok.injEq] at h
            subst h
            obtain ⟨a1, a2, a3⟩ := ih c d hd
            refine ⟨⟨a1, fun l' hl' => ?_⟩, by simp [sumParts], fun l' hl' hs => by simp [sumParts] at hs⟩
            have hsc : sumParts c = none := by
              rw [← a2]
              cases d <;> simp [catInputs] at hl' <;> rfl
            obtain ⟨l, hl, hlen, hel⟩ := a3 l' hl' hsc
            rcases flattenSum_none ho l hl with rfl | ⟨a, ha, hn⟩
            · left; exact List.length_eq_zero_iff.1 hlen.symm
            · right
              obtain ⟨i, hi, rfl⟩ := List.getElem_of_mem ha
              exact ⟨l'[i]'(by omega), List.getElem_mem _, hel i hi (by omega) hn⟩

/-- **C30 (effect).** Whenever `prune_sums` returns, no Sum of the result has a Cat of Sums as its input. -/
theorem C30_no_nested_sums {k : ℕ} {c c' : Circ} (h : prune k c = .ok c') : NoNested c' :=
  (prune_noNested_aux k c c' h).1

/-! ### Non-vacuity and the multi-channel case -/

/-- A Sum with one output over a two-channel Gaussian leaf. -/
noncomputable def exInner (m : ℝ) : Circ :=
  sum (leaf [0] 2 1 fun _ ch _ => Leaves.normalLL (m + ch) 1) 1 1 fun _ ci _ _ => logL (if ci = 0 then 1/4 else 3/4)

/-- A Sum over two such Sums. -/
noncomputable def exNested : Circ := sum (catL [exInner 0, exInner 5]) 1 1 fun _ _ _ _ => 0

example : Accepted exNested ∧ SameReps 1 exNested ∧ FiniteLogits exNested ∧ Prunable exNested ∧ ¬ NoNested exNested := by
  have h0 : ∀ ci : ℕ, logL (if ci = 0 then 1/4 else 3/4) ≠ ⊥ := by
    intro ci; split <;> norm_num [logL]
  have ha : ∀ m, Accepted (exInner m) := fun m => ⟨rfl, le_rfl, fun _ _ _ _ _ _ => ⟨0, Nat.two_pos, h0 0⟩⟩
  refine ⟨⟨accepted_catL.2 ⟨?_, rfl⟩, le_rfl, fun _ _ _ _ _ _ => ⟨0, by decide, by simp⟩⟩, ⟨sameReps_catL.2 ?_, rfl⟩,
    ⟨finite_catL.2 ?_, fun _ _ _ _ _ _ _ _ => by simp⟩, ⟨prunable_catL.2 ?_, Or.inl (spine_catL.2 ?_)⟩, fun h => ?_⟩
  · simp only [List.mem_cons, List.not_mem_nil, or_false, forall_eq_or_imp, forall_eq]; exact ⟨ha _, ha _⟩
  · simp only [List.mem_cons, List.not_mem_nil, or_false, forall_eq_or_imp, forall_eq]; exact ⟨⟨rfl, rfl⟩, ⟨rfl, rfl⟩⟩
  · simp only [List.mem_cons, List.not_mem_nil, or_false, forall_eq_or_imp, forall_eq]
    exact ⟨⟨trivial, fun _ _ ci _ _ _ _ _ => h0 ci⟩, ⟨trivial, fun _ _ ci _ _ _ _ _ => h0 ci⟩⟩
  · simp only [List.mem_cons, List.not_mem_nil, or_false, forall_eq_or_imp, forall_eq]
    exact ⟨⟨trivial, Or.inl trivial⟩, ⟨trivial, Or.inl trivial⟩⟩
  · simp only [List.mem_cons, List.not_mem_nil, or_false, forall_eq_or_imp, forall_eq]
    exact ⟨⟨rfl, trivial⟩, ⟨rfl, trivial⟩⟩
  · rcases h.2 [exInner 0, exInner 5] (by simp only [catL, catInputs]; rw [ofFn_get]) with h | ⟨a, ha, hn⟩
    · simp at h
    · simp only [List.mem_cons, List.not_mem_nil, or_false] at ha
      rcases ha with rfl | rfl <;> simp [exInner, sumParts] at hn

/-- The same nesting with two-channel Sums. -/
noncomputable def twoInner : Circ := sum (leaf [0] 1 1 fun _ _ _ => Leaves.normalLL 0 1) 2 1 fun _ _ _ _ => 0
noncomputable def twoNested : Circ := sum (catL [twoInner, twoInner]) 1 1 fun _ _ _ _ => 0

/-- **C30 is false for nested Sums with several channels**: the inner weights are scaled by entry `i` of the outer
weights, although channel `i` belongs to another input; the products no longer sum to one and the call raises. -/
theorem C30_multi_channel_raises : Accepted twoNested ∧ prune (size twoNested) twoNested = .error .invalidWeights := by
  have hsz : size twoNested = 5 + 1 := by
    show 1 + size (catL [twoInner, twoInner]) = 6
    rw [size_catL]; rfl
  constructor
  · refine ⟨accepted_catL.2 ⟨?_, rfl⟩, le_rfl, fun _ _ _ _ _ _ => ⟨0, by decide, by simp⟩⟩
    have ha : Accepted twoInner := ⟨rfl, by decide, fun _ _ _ _ _ _ => ⟨0, by decide, by simp⟩⟩
    simp only [List.mem_cons, List.not_mem_nil, or_false, forall_eq_or_imp, forall_eq]; exact ⟨ha, ha⟩
  · rw [hsz]
    unfold twoNested
    rw [prune]
    have hcat : catInputs (catL [twoInner, twoInner]) = some [twoInner, twoInner] := by
      simp only [catL, catInputs]; rw [ofFn_get]
    have hfl : flattenSum (catL [twoInner, twoInner]) 1 1 (fun _ _ _ _ => 0) = .error .invalidWeights := by
      have hw : ∀ ci, weight (catL [twoInner, twoInner]) (fun _ _ _ _ => 0) 0 ci 0 0 = 1 / 4 := by
        intro ci
        have hC : C (catL [twoInner, twoInner]) = 4 := by rw [C_catL]; rfl
        unfold weight
        rw [hC, softmax_eq]; norm_num
      have hi : ∀ co, weight (leaf [0] 1 1 fun _ _ _ => Leaves.normalLL 0 1) (fun _ _ _ _ => 0) 0 0 co 0 = 1 := by
        intro co
        unfold weight
        rw [softmax_eq]; simp [C]
      have hs : scaleAll (weightsOf (catL [twoInner, twoInner]) 1 1 fun _ _ _ _ => 0) 0
          [weightsOf (leaf [0] 1 1 fun _ _ _ => Leaves.normalLL 0 1) 2 1 fun _ _ _ _ => 0,
            weightsOf (leaf [0] 1 1 fun _ _ _ => Leaves.normalLL 0 1) 2 1 fun _ _ _ _ => 0] =
          .ok [⟨1, 1, 2, 1, fun _ ci co _ => weight (leaf [0] 1 1 fun _ _ _ => Leaves.normalLL 0 1) (fun _ _ _ _ => 0) 0 ci co 0 *
              weight (catL [twoInner, twoInner]) (fun _ _ _ _ => 0) 0 0 0 0⟩,
            ⟨1, 1, 2, 1, fun _ ci co _ => weight (leaf [0] 1 1 fun _ _ _ => Leaves.normalLL 0 1) (fun _ _ _ _ => 0) 0 ci co 0 *
              weight (catL [twoInner, twoInner]) (fun _ _ _ _ => 0) 0 1 0 0⟩] := rfl
      unfold flattenSum
      rw [hcat]
      simp only [twoInner, allSome, sumParts, List.map_cons, List.map_nil]
      simp only [twoInner] at hs
      rw [hs]
      simp only [bind, Except.bind, concatCi]
      rw [if_pos (by decide)]
      simp only
      have hm : mkCat 2 (newInputs [leaf [0] 1 1 fun _ _ _ => Leaves.normalLL 0 1, leaf [0] 1 1 fun _ _ _ => Leaves.normalLL 0 1]) =
        .ok (catL [leaf [0] 1 1 fun _ _ _ => Leaves.normalLL 0 1, leaf [0] 1 1 fun _ _ _ => Leaves.normalLL 0 1]) := rfl
      rw [hm]
      simp only
      unfold setChecked
      simp only [twoInner] at hw
      rw [if_neg (not_not.2 ?_), if_pos ?_]
      · intro h
        have := h 0 (by decide) 0 (by decide) 0 (by decide)
        simp [catW, Finset.sum_range_succ, hw, hi, CloseToOne] at this
        norm_num [abs_le] at this
      · intro f hf ci hci co hco r hr
        simp only [List.map_cons, List.map_nil, List.sum_cons, List.sum_nil] at hci
        interval_cases ci <;> simp [catW, hw, hi]
    rw [hfl]; rfl

end Circ
end Verif

import Verif.SamplingProps

/-!
# Property C15: `mpe`

`mpe(data=y)` is `sample(data=y, is_mpe=True)` (module.py:262-295); `mpeRun` of the sampling programs.
-/

namespace Verif
namespace Circ

open Prog

/-- The circuit contains no Sum. -/
def SumFree : Circ → Prop
  | leaf _ _ _ _ => True
  | cat1 _ cs => ∀ i, SumFree (cs i)
  | cat2 _ cs => ∀ i, SumFree (cs i)
  | prod c => SumFree c
  | sum _ _ _ _ => False

/-- Every Sum unit puts all its weight on one input channel. -/
def OneHot : Circ → Prop
  | leaf _ _ _ _ => True
  | cat1 _ cs => ∀ i, OneHot (cs i)
  | cat2 _ cs => ∀ i, OneHot (cs i)
  | prod c => OneHot c
  | sum c Co R θ => OneHot c ∧ ∀ f < F c, ∀ co < Co, ∀ r < R, ∃ k < C c, θ f k co r ≠ ⊥ ∧
      ∀ ci < C c, ci ≠ k → θ f ci co r = ⊥

theorem SumFree.oneHot {c : Circ} (h : SumFree c) : OneHot c := by
  induction c with
  | leaf => trivial
  | cat1 n cs ih => exact fun i => ih i (h i)
  | cat2 n cs ih => exact fun i => ih i (h i)
  | prod c ih => exact ih h
  | sum c _ _ _ _ => exact h.elim

/-- `argmax`: the first index of a largest entry. -/
noncomputable def top (n : ℕ) (l : ℕ → LogV) : ℕ :=
  ((List.range n).find? fun i => (List.range n).all fun j => open Classical in decide (l j ≤ l i)).getD 0

theorem top_spec {n : ℕ} (hn : 0 < n) (l : ℕ → LogV) : top n l < n ∧ ∀ j < n, l j ≤ l (top n l) := by
  have hex : ∃ i ∈ List.range n, ((List.range n).all fun j => open Classical in decide (l j ≤ l i)) = true := by
    obtain ⟨i, hi, hm⟩ := Finset.exists_max_image (Finset.range n) l ⟨0, Finset.mem_range.2 hn⟩
    exact ⟨i, List.mem_range.2 (Finset.mem_range.1 hi), by
      simpa [List.all_eq_true] using fun j hj => hm j (Finset.mem_range.2 hj)⟩
  unfold top
  rcases hf : (List.range n).find? fun i => (List.range n).all fun j => open Classical in decide (l j ≤ l i) with _ | i
  · rw [List.find?_eq_none] at hf
    obtain ⟨i, hi, h⟩ := hex
    exact absurd h (hf i hi)
  · have h1 := List.mem_of_find?_eq_some hf
    have h2 := List.find?_some hf
    refine ⟨List.mem_range.1 h1, fun j hj => ?_⟩
    simp only [List.all_eq_true, List.mem_range, decide_eq_true_eq] at h2
    exact h2 j hj

/-- `dist.mode` of every leaf is a point of maximal density. -/
def ModeOk (mode : (ℝ → LogV) → ℝ) : Circ → Prop
  | leaf q C R d => ∀ f < q.length, ∀ ch < C, ∀ r < R, ∀ t, d f ch r t ≤ d f ch r (mode (d f ch r))
  | cat1 _ cs => ∀ i, ModeOk mode (cs i)
  | cat2 _ cs => ∀ i, ModeOk mode (cs i)
  | prod c => ModeOk mode c
  | sum c _ _ _ => ModeOk mode c

theorem mpeRun_bind {α β : Type} (mode : (ℝ → LogV) → ℝ) (p : Prog α) (g : α → Prog β) :
    (p.bind g).mpeRun mode = match p.mpeRun mode with
      | .ok a => (g a).mpeRun mode
      | .error e => .error e := by
  induction p with
  | ret a => rfl
  | fail e => rfl
  | choose n l k ih => simp only [Prog.bind, mpeRun]; exact ih _
  | draw d k ih => simp only [Prog.bind, mpeRun]; exact ih _

/-- sampler `s` with `is_mpe`: terminates normally and fills `A` so that `Q y z` -/
def Mpe (mode : (ℝ → LogV) → ℝ) (s : Row → Prog Row) (A : Set Var) (Q : Row → Row → Prop) : Prop :=
  ∀ y, ∃ z, (s y).mpeRun mode = .ok z ∧ (∀ v ∈ A, z v ≠ none) ∧ (∀ v, ¬ (v ∈ A ∧ y v = none) → z v = y v) ∧ Q y z

theorem seqAll_mpe {mode : (ℝ → LogV) → ℝ} (l : List ((Row → Prog Row) × Set Var × (Row → Row → Prop)))
    (hm : ∀ b ∈ l, Mpe mode b.1 b.2.1 b.2.2)
    (hloc : ∀ b ∈ l, ∀ y y' z z', (∀ v ∈ b.2.1, y v = y' v) → (∀ v ∈ b.2.1, z v = z' v) → b.2.2 y z → b.2.2 y' z')
    (hdis : l.Pairwise fun a b => Disjoint a.2.1 b.2.1) :
    Mpe mode (seqAll (l.map Prod.fst)) {v | ∃ b ∈ l, v ∈ b.2.1} fun y z => ∀ b ∈ l, b.2.2 y z := by
  induction l with
  | nil => intro y; exact ⟨y, rfl, by simp, fun _ _ => rfl, by simp⟩
  | cons b l ih =>
    rw [List.pairwise_cons] at hdis
    intro y
    obtain ⟨y1, r1, f1, p1, q1⟩ := hm b (by simp) y
    obtain ⟨z, r2, f2, p2, q2⟩ := ih (fun b hb => hm b (by simp [hb])) (fun b hb => hloc b (by simp [hb])) hdis.2 y1
    have off : ∀ v ∈ b.2.1, z v = y1 v := fun v hv => p2 v fun hh => f1 v hv hh.2
    have off1 : ∀ b' ∈ l, ∀ v ∈ b'.2.1, y1 v = y v := fun b' hb' v hv => p1 v fun hh =>
      Set.disjoint_left.1 (hdis.1 b' hb') hh.1 hv
    refine ⟨z, ?_, ?_, ?_, ?_⟩
    · rw [List.map_cons, seqAll, mpeRun_bind, r1]; exact r2
    · rintro v ⟨b', hb', hv⟩
      rcases List.mem_cons.1 hb' with rfl | hb'
      · rw [off v hv]; exact f1 v hv
      · exact f2 v ⟨b', hb', hv⟩
    · intro v hv
      have e1 : y1 v = y v := p1 v fun hh => hv ⟨⟨b, by simp, hh.1⟩, hh.2⟩
      rw [p2 v fun hh => ?_, e1]
      obtain ⟨⟨b', hb', hv'⟩, hn⟩ := hh
      exact hv ⟨⟨b', by simp [hb'], hv'⟩, by rw [← e1]; exact hn⟩
    · intro b' hb'
      rcases List.mem_cons.1 hb' with rfl | hb'
      · exact hloc _ (by simp) y y y1 z (fun _ _ => rfl) (fun v hv => (off v hv).symm) q1
      · exact hloc b' (by simp [hb']) y1 y z z (off1 b' hb') (fun _ _ => rfl) (q2 b' hb')

/-- `z` is at least as likely as every row that agrees with `y` where `y` is observed, feature by feature. -/
def Best (c : Circ) (r : ℕ) (ch : ℕ → ℕ) (mask : ℕ → Bool) (y z : Row) : Prop :=
  ∀ x : Row, (∀ v ∈ act c mask, x v ≠ none) → (∀ v ∈ act c mask, y v ≠ none → x v = y v) →
    ∀ f < F c, mask f = true → featAt (den c) f x r (ch f) ≤ featAt (den c) f z r (ch f)

theorem best_local {c : Circ} (h : Accepted c) (hal : Aligned c) {r : ℕ} {ch : ℕ → ℕ} {mask : ℕ → Bool}
    (hch : ∀ f < F c, ch f < C c) {y y' z z' : Row} (hy : ∀ v ∈ act c mask, y v = y' v)
    (hz : ∀ v ∈ act c mask, z v = z' v) (hb : Best c r ch mask y z) : Best c r ch mask y' z' := by
  intro x h1 h2 f hf hm
  rw [← featAt_local h hal hf (hch f hf) fun v hv => hz v ⟨f, hf, hm, hv⟩]
  exact hb x h1 (fun v hv hn => by rw [hy v hv] at hn ⊢; exact h2 v hv hn) f hf hm

theorem pickAll_mpe (mode : (ℝ → LogV) → ℝ) (n : ℕ) (l : ℕ → ℕ → LogV) (F : ℕ) :
    (pickAll n l F).mpeRun mode = .ok fun f => if f < F then top n (l f) else 0 := by
  induction F with
  | zero => simp [pickAll, mpeRun]
  | succ F ih =>
    rw [pickAll, mpeRun_bind, ih]
    simp only [mpeRun]
    congr 1
    funext f
    by_cases hf : f = F
    · subst hf; simp [top]
    · rw [Function.update_of_ne hf]
      by_cases h : f < F
      · rw [if_pos h, if_pos (by omega)]
      · rw [if_neg h, if_neg (by omega)]

theorem featAt_oneHot {c : Circ} {Co R : ℕ} {θ} (h : Accepted (sum c Co R θ)) {f co r k : ℕ} (hf : f < F c) (hco : co < Co)
    (hr : r < R) (hk : k < C c) (h0 : ∀ ci < C c, ci ≠ k → θ f ci co r = ⊥) (x : Row) :
    featAt (den (sum c Co R θ)) f x r co = featAt (den c) f x r k := by
  apply expL_injective
  have hz : ∀ ci ∈ Finset.range (C c), ci ≠ k → weight c θ f ci co (bc R r) = 0 := by
    intro ci hci hne
    have hci := Finset.mem_range.1 hci
    unfold weight
    rw [bc_of_lt hr]
    rw [softmax_eq]
    simp [h0 ci hci hne]
  have h1 := sum_weight h hf hco (.inr hr)
  rw [Finset.sum_eq_single k hz fun hn => absurd (Finset.mem_range.2 hk) hn] at h1
  rw [expL_featAt_sum hf, Finset.sum_eq_single k (fun ci hci hne => by rw [hz ci hci hne, zero_mul])
    fun hn => absurd (Finset.mem_range.2 hk) hn, h1, one_mul]

theorem sample_mpe {mode : (ℝ → LogV) → ℝ} {r : ℕ} {c : Circ} (h : Accepted c) (hal : Aligned c)
    (hp : PosCh c) (hr : RepS r c) (hs : OneHot c) (hmode : ModeOk mode c) :
    ∀ (ch : ℕ → ℕ) (mask : ℕ → Bool), (∀ f < F c, ch f < C c) →
      Mpe mode (sample none r c ch mask) (act c mask) (Best c r ch mask) := by
  have congr : ∀ {s : Row → Prog Row} {A A' : Set Var} {Q Q' : Row → Row → Prop}, A' = A →
      (∀ y z, Q y z → Q' y z) → Mpe mode s A Q → Mpe mode s A' Q' := by
    intro s A A' Q Q' hA hQ hm y
    subst hA
    obtain ⟨z, h1, h2, h3, h4⟩ := hm y
    exact ⟨z, h1, h2, h3, hQ y z h4⟩
  induction c with
  | leaf q C R d =>
    intro ch mask hch
    have es : sample none r (leaf q C R d) ch mask =
        seqAll (List.ofFn fun i : Fin q.length => sampleCell (d i (ch i) r) (mask i) q[i]) :=
      funext fun y => sample_leaf hp hch hr y
    have hval : ∀ (x : Row) (i : Fin q.length), featAt (den (leaf q C R d)) i x r (ch i) =
        cellVal (d i (ch i) r) (x q[i]) := by
      intro x i
      have hq : q[i.val]? = some q[i] := by simp
      rw [featAt_leaf hq, bc_of_lt hr]
      cases x q[i] <;> rfl
    set b : Fin q.length → (Row → Prog Row) × Set Var × (Row → Row → Prop) := fun i =>
      (sampleCell (d i (ch i) r) (mask i) q[i], {w | mask i = true ∧ w = q[i]}, fun y z =>
        mask i = true → ∀ o : Option ℝ, o ≠ none → (y q[i] ≠ none → o = y q[i]) →
          cellVal (d i (ch i) r) o ≤ cellVal (d i (ch i) r) (z q[i])) with hb
    have hres := seqAll_mpe (mode := mode) (List.ofFn b)
      (by
        intro x hx; rw [List.mem_ofFn] at hx; obtain ⟨i, rfl⟩ := hx
        intro y
        simp only [hb, sampleCell]
        by_cases hc : (mask i && (y q[i]).isNone) = true
        · rw [if_pos hc]
          simp only [Bool.and_eq_true, Option.isNone_iff_eq_none] at hc
          refine ⟨_, rfl, ?_, ?_, ?_⟩
          · rintro v ⟨_, rfl⟩; simp
          · intro v hv
            have : v ≠ q[i] := by rintro rfl; exact hv ⟨⟨hc.1, rfl⟩, hc.2⟩
            rw [Function.update_of_ne this]
          · intro _ o ho _
            obtain ⟨t, rfl⟩ := Option.ne_none_iff_exists'.1 ho
            simp only [Function.update_self, cellVal]
            exact hmode i i.2 (ch i) (hch i i.2) r hr t
        · rw [if_neg hc]
          refine ⟨y, rfl, ?_, fun _ _ => rfl, ?_⟩
          · rintro v ⟨hm, rfl⟩ hn
            exact hc (by simp only [hm, Bool.true_and, Option.isNone_iff_eq_none]; exact hn)
          · intro hm o ho hy
            have hn : y q[i] ≠ none := by
              intro hn
              exact hc (by simp only [hm, Bool.true_and, Option.isNone_iff_eq_none]; exact hn)
            rw [hy hn])
      (by
        intro x hx; rw [List.mem_ofFn] at hx; obtain ⟨i, rfl⟩ := hx
        intro y y' z z' hy hz hq hm o ho ho'
        have hyi := hy q[i] ⟨hm, rfl⟩
        have hzi := hz q[i] ⟨hm, rfl⟩
        rw [← hyi] at ho'
        rw [← hzi]
        exact hq hm o ho ho')
      (by
        rw [List.pairwise_iff_getElem]
        intro i j hi hj hij
        simp only [List.getElem_ofFn, hb]
        rw [Set.disjoint_left]
        rintro v ⟨-, hv⟩ ⟨-, hv'⟩
        have hnd := (Accepted.leaf_valid h).query_nodup
        simp only [List.length_ofFn] at hi hj
        have : q[i] = q[j] := hv.symm.trans hv'
        have := (List.Nodup.getElem_inj_iff hnd).1 this
        omega)
    rw [es]
    have em : (List.ofFn b).map Prod.fst =
        List.ofFn fun i : Fin q.length => sampleCell (d i (ch i) r) (mask i) q[i] := by
      simp [List.map_ofFn, Function.comp_def, hb]
    rw [em] at hres
    refine congr ?_ ?_ hres
    · ext v
      rw [act_leaf]
      simp [List.mem_ofFn, hb]
    · intro y z hq x h1 h2 f hf hm
      replace hf : f < q.length := hf
      have := hq (b ⟨f, hf⟩) (by rw [List.mem_ofFn]; exact ⟨_, rfl⟩) hm (x q[(⟨f, hf⟩ : Fin q.length)])
        (h1 _ ((act_leaf ..).2 ⟨⟨f, hf⟩, hm, rfl⟩)) (h2 _ ((act_leaf ..).2 ⟨⟨f, hf⟩, hm, rfl⟩))
      rw [← hval, ← hval] at this
      exact this
  | cat1 n cs ih =>
    intro ch mask hch
    have es : sample none r (cat1 n cs) ch mask = seqAll (List.ofFn fun i : Fin n =>
        sample none r (cs i) (fun f => ch (offF cs i + f)) (fun f => mask (offF cs i + f))) :=
      funext fun y => sample_cat1 h hp hr hch y
    have hchild : ∀ i, ∀ f < F (cs i), ch (offF cs i + f) < C (cs i) := by
      intro i f hf
      rw [cat1_C h.2 i]
      exact hch _ (offF_lt i hf)
    set b : Fin n → (Row → Prog Row) × Set Var × (Row → Row → Prop) := fun i =>
      (sample none r (cs i) (fun f => ch (offF cs i + f)) (fun f => mask (offF cs i + f)),
        act (cs i) (fun f => mask (offF cs i + f)),
        Best (cs i) r (fun f => ch (offF cs i + f)) (fun f => mask (offF cs i + f))) with hb
    have hres := seqAll_mpe (mode := mode) (List.ofFn b)
      (by
        intro x hx; rw [List.mem_ofFn] at hx; obtain ⟨i, rfl⟩ := hx
        exact ih i (h.1 i) (hal i) (hp i) (hr i) (hs i) (hmode i) _ _ (hchild i))
      (by
        intro x hx; rw [List.mem_ofFn] at hx; obtain ⟨i, rfl⟩ := hx
        intro y y' z z' hy hz hq
        exact best_local (h.1 i) (hal i) (hchild i) hy hz hq)
      (by
        rw [List.pairwise_iff_getElem]
        intro i j hi hj hij
        simp only [List.getElem_ofFn, hb]
        rw [Set.disjoint_left]
        rintro v ⟨f, hf, -, hv⟩ ⟨g, hg, -, hv'⟩
        simp only [List.length_ofFn] at hi hj
        rw [← fscope_cat1 ⟨i, hi⟩ hf] at hv
        rw [← fscope_cat1 ⟨j, hj⟩ hg] at hv'
        exact Finset.disjoint_left.1 (fscope_disjoint h (offF_lt ⟨i, hi⟩ hf) (offF_lt ⟨j, hj⟩ hg)
          (offF_disj cs (i := ⟨i, hi⟩) (j := ⟨j, hj⟩) hij hf)) hv hv')
    rw [es]
    have em : (List.ofFn b).map Prod.fst = List.ofFn fun i : Fin n =>
        sample none r (cs i) (fun f => ch (offF cs i + f)) (fun f => mask (offF cs i + f)) := by
      simp [List.map_ofFn, Function.comp_def, hb]
    rw [em] at hres
    refine congr ?_ ?_ hres
    · ext v
      rw [act_cat1]
      simp [List.mem_ofFn, hb]
    · intro y z hq x h1 h2 f hf hm
      obtain ⟨i, j, hj, rfl⟩ := exists_cat1_index hf
      have hsub : ∀ v ∈ act (cs i) (fun f => mask (offF cs i + f)), v ∈ act (cat1 n cs) mask :=
        fun v hv => (act_cat1 cs mask v).2 ⟨i, hv⟩
      rw [featAt_cat1 i hj, featAt_cat1 i hj]
      exact hq (b i) (by rw [List.mem_ofFn]; exact ⟨i, rfl⟩) x (fun v hv => h1 v (hsub v hv))
        (fun v hv => h2 v (hsub v hv)) j hj hm
  | cat2 n cs ih =>
    intro ch mask hch
    have es : sample none r (cat2 n cs) ch mask = _ := funext fun y => sample_cat2 h hp hr hch y
    set lch : Fin n → ℕ → ℕ := fun i f =>
      if offC cs i ≤ ch f ∧ ch f < offC cs i + C (cs i) then ch f - offC cs i else 0 with hlch
    set lm : Fin n → ℕ → Bool := fun i f =>
      decide (offC cs i ≤ ch f ∧ ch f < offC cs i + C (cs i)) && mask f with hlm
    have hchild : ∀ i, ∀ f < F (cs i), lch i f < C (cs i) := by
      intro i f hf
      have := posC (h.1 i) (hp i)
      simp only [hlch]
      split <;> omega
    have hfeat : ∀ (x : Row) (i : Fin n) f, f < F (cs i) → lm i f = true →
        featAt (den (cs i)) f x r (lch i f) = featAt (den (cat2 n cs)) f x r (ch f) := by
      intro x i f hf hm
      simp only [hlm, Bool.and_eq_true, decide_eq_true_eq] at hm
      simp only [hlch, if_pos hm.1]
      rw [← featAt_cat2 i (by rwa [← cat2_F h.2 i]) (by omega)]
      congr 1
      omega
    set b : Fin n → (Row → Prog Row) × Set Var × (Row → Row → Prop) := fun i =>
      (sample none r (cs i) (lch i) (lm i), act (cs i) (lm i), Best (cs i) r (lch i) (lm i)) with hb
    have hres := seqAll_mpe (mode := mode) (List.ofFn b)
      (by
        intro x hx; rw [List.mem_ofFn] at hx; obtain ⟨i, rfl⟩ := hx
        exact ih i (h.1 i) (hal.1 i) (hp i) (hr i) (hs i) (hmode i) _ _ (hchild i))
      (by
        intro x hx; rw [List.mem_ofFn] at hx; obtain ⟨i, rfl⟩ := hx
        intro y y' z z' hy hz hq
        exact best_local (h.1 i) (hal.1 i) (hchild i) hy hz hq)
      (by
        rw [List.pairwise_iff_getElem]
        intro i j hi hj hij
        simp only [List.getElem_ofFn, hb]
        rw [Set.disjoint_left]
        rintro v ⟨f, hf, hm, hv⟩ ⟨g, hg, hm', hv'⟩
        simp only [List.length_ofFn] at hi hj
        rw [← fscope_cat2 hal.2 ⟨i, hi⟩] at hv
        rw [← fscope_cat2 hal.2 ⟨j, hj⟩] at hv'
        have hf' : f < F (cat2 n cs) := by rwa [cat2_F h.2 ⟨i, hi⟩] at hf
        have hg' : g < F (cat2 n cs) := by rwa [cat2_F h.2 ⟨j, hj⟩] at hg
        have hfg : f = g := by
          by_contra hne
          exact Finset.disjoint_left.1 (fscope_disjoint h hf' hg' hne) hv hv'
        subst hfg
        simp only [hlm, Bool.and_eq_true, decide_eq_true_eq] at hm hm'
        have := owner_unique cs (i := ⟨i, hi⟩) (j := ⟨j, hj⟩) hm.1 hm'.1
        simp only [Fin.mk.injEq] at this
        omega)
    rw [es]
    have em : (List.ofFn b).map Prod.fst = List.ofFn fun i : Fin n => sample none r (cs i) (lch i) (lm i) := by
      simp [List.map_ofFn, Function.comp_def, hb]
    rw [em] at hres
    refine congr ?_ ?_ hres
    · ext v
      rw [act_cat2 h hal hch]
      simp only [List.mem_ofFn, Set.mem_ofPred_eq, hb]
      constructor
      · rintro ⟨i, hi⟩; exact ⟨_, ⟨i, rfl⟩, hi⟩
      · rintro ⟨_, ⟨i, rfl⟩, hi⟩; exact ⟨i, hi⟩
    · intro y z hq x h1 h2 f hf hm
      obtain ⟨i, k, hk, he⟩ := exists_cat2_index (hch f hf)
      have hown : offC cs i ≤ ch f ∧ ch f < offC cs i + C (cs i) := by omega
      have hlmi : lm i f = true := by simp [hlm, hown, hm]
      have hfi : f < F (cs i) := by rw [cat2_F h.2 i]; exact hf
      have hsub : ∀ v ∈ act (cs i) (lm i), v ∈ act (cat2 n cs) mask :=
        fun v hv => (act_cat2 h hal hch mask v).2 ⟨i, hv⟩
      rw [← hfeat x i f hfi hlmi, ← hfeat z i f hfi hlmi]
      exact hq (b i) (by rw [List.mem_ofFn]; exact ⟨i, rfl⟩) x (fun v hv => h1 v (hsub v hv))
        (fun v hv => h2 v (hsub v hv)) f hfi hlmi
  | prod c ih =>
    intro ch mask hch
    replace h : Accepted c := h
    replace hp : PosCh c := hp
    replace hr : RepS r c := hr
    have h0 : ch 0 < C c := hch 0 (by simp [F])
    have es : sample none r (prod c) ch mask = sample none r c (fun _ => ch 0) (fun _ => mask 0) :=
      funext fun y => sample_prod h hp hr h0 y
    rw [es]
    refine congr (Set.ext fun v => act_prod c mask v) ?_ (ih h hal hp hr hs hmode _ _ fun f _ => h0)
    intro y z hq x h1 h2 f hf hm
    obtain rfl : f = 0 := by simp only [F] at hf; omega
    rw [← expL_le_iff, expL_featAt_prod, expL_featAt_prod]
    refine Finset.prod_le_prod (fun g _ => expL_nonneg _) fun g hg => ?_
    rw [expL_le_iff]
    exact hq x (fun v hv => h1 v ((act_prod c mask v).2 hv)) (fun v hv => h2 v ((act_prod c mask v).2 hv)) g
      (Finset.mem_range.1 hg) hm
  | sum c Co R θ ih =>
    intro ch mask hch
    have es : sample none r (sum c Co R θ) ch mask = _ := funext fun y => sample_sum h hr hch y
    rw [es, act_sum]
    have hC := posC h.1 hp
    set ch' : ℕ → ℕ := fun f => if f < F c then top (C c) (sumLogits none r c θ ch f) else 0 with hch'
    have hlt : ∀ f < F c, ch' f < C c := by
      intro f hf
      simp only [hch', if_pos hf]
      exact (top_spec hC _).1
    intro y
    obtain ⟨z, h1, h2, h3, h4⟩ := ih h.1 hal hp hr.1 hs.1 hmode ch' mask hlt y
    refine ⟨z, ?_, h2, h3, ?_⟩
    · rw [mpeRun_bind, pickAll_mpe]; exact h1
    · intro x hx1 hx2 f hf hm
      rw [act_sum] at hx1 hx2
      replace hf : f < F c := hf
      obtain ⟨k, hk, hkb, hk0⟩ := hs.2 f hf (ch f) (hch f hf) r hr.2
      have : ch' f = k := by
        simp only [hch', if_pos hf]
        by_contra hne
        have ht := top_spec hC (sumLogits none r c θ ch f)
        have h5 : θ f k (ch f) r ≤ θ f (top (C c) (sumLogits none r c θ ch f)) (ch f) r := ht.2 k hk
        rw [hk0 _ ht.1 hne, le_bot_iff] at h5
        exact hkb h5
      rw [featAt_oneHot h hf (hch f hf) hr.2 hk hk0, featAt_oneHot h hf (hch f hf) hr.2 hk hk0, ← this]
      exact h4 x hx1 hx2 f hf hm

/-- C15 for circuits without Sum: `mpe(data=y)` returns a completion of the evidence that is at least as likely as
every other completion.  For circuits with Sum the property is false (`C15_mixture_not_optimal`,
`C15_evidence_ignored`). -/
theorem C15_sumfree_partial {mode : (ℝ → LogV) → ℝ} {c : Circ} (h : Accepted c) (hal : Aligned c) (hp : PosCh c)
    (hr : RepS 0 c) (hs : SumFree c) (hmode : ModeOk mode c) (y : Row) :
    ∃ z, (sampleData c y).mpeRun mode = .ok z ∧ Completes c y z ∧
      ∀ x, Completes c y x → likelihood c x ≤ likelihood c z := by
  obtain ⟨z, h1, h2, h3, h4⟩ := sample_mpe h hal hp hr hs.oneHot hmode (fun _ => 0) (fun _ => true)
    (fun f _ => posC h hp) y
  refine ⟨z, h1, ⟨fun v hv => h2 v ((mem_act_all h v).2 hv), fun v t hv => ?_, fun v hv => ?_⟩, fun x hx => ?_⟩
  · rw [← hv]; exact h3 v fun hh => by simp [hv] at hh
  · exact h3 v fun hh => hv ((mem_act_all h v).1 hh.1)
  · refine Finset.prod_le_prod (fun g _ => expL_nonneg _) fun f hf => ?_
    rw [expL_le_iff]
    refine h4 x (fun v hv => hx.1 v ((mem_act_all h v).1 hv)) (fun v _ hn => ?_) f (Finset.mem_range.1 hf) rfl
    obtain ⟨t, ht⟩ := Option.ne_none_iff_exists'.1 hn
    rw [ht]; exact hx.2.1 v t ht

/-- The hypotheses are met by a product of a Bernoulli and a Normal leaf with the true modes. -/
example : ∃ mode : (ℝ → LogV) → ℝ, ModeOk mode (exComp (1/4) 3) ∧ SumFree (exComp (1/4) 3) ∧
    Accepted (exComp (1/4) 3) := by
  refine ⟨fun d => open Classical in if d = Leaves.normalLL 3 1 then 3 else 0, ?_, ?_, exComp_accepted _ _⟩
  · intro i
    fin_cases i
    · intro f hf ch hch r hr t
      have hne : Leaves.bernoulliLL (1/4) ≠ Leaves.normalLL 3 1 := by
        intro h
        have := congrFun h 7
        norm_num [Leaves.bernoulliLL, Leaves.normalLL] at this
      simp only [if_neg hne]
      rw [← expL_le_iff]
      simp only [Leaves.bernoulliLL]
      norm_num
      rw [expL_logL (by norm_num : (0:ℝ) ≤ 3/4)]
      split_ifs
      · rw [expL_logL (by norm_num)]; norm_num
      · rw [expL_logL (by norm_num)]
      · norm_num
    · intro f hf ch hch r hr t
      simp only [if_true, Leaves.normalLL]
      rw [WithBot.coe_le_coe]
      have : 0 ≤ (t - 3) ^ 2 := sq_nonneg _
      norm_num
      linarith
  · intro i; fin_cases i <;> trivial

/-! ### C15 is false for mixtures -/

theorem mpeRun_choose_two {α : Type} (mode : (ℝ → LogV) → ℝ) (l : ℕ → LogV) (k : ℕ → Prog α) :
    (l 1 ≤ l 0 → (choose 2 l k).mpeRun mode = (k 0).mpeRun mode) ∧
    (l 0 < l 1 → (choose 2 l k).mpeRun mode = (k 1).mpeRun mode) := by
  have hr : List.range 2 = [0, 1] := rfl
  constructor
  · intro h
    simp only [mpeRun, hr, List.find?_cons, List.all_cons, List.all_nil]
    simp [h]
  · intro h
    simp only [mpeRun, hr, List.find?_cons, List.all_cons, List.all_nil]
    simp [h.le, not_le.2 h]

theorem logL_lt {a b : ℝ} (ha : 0 ≤ a) (h : a < b) : logL a < logL b := by
  rw [← not_le, ← expL_le_iff, expL_logL ha, expL_logL (ha.trans h.le)]
  exact not_le.2 h

/-- Mixture with weights 2/5, 3/5 of Bernoulli(99/100) and Bernoulli(49/100) over variable 0. -/
noncomputable def exMpe : Circ :=
  sum (leaf [0] 2 1 fun _ ch _ => Leaves.bernoulliLL (if ch = 0 then 99/100 else 49/100)) 1 1
    fun _ ci _ _ => logL (if ci = 0 then 2/5 else 3/5)

theorem exMpe_value (t : ℝ) : likelihood exMpe (fun v => if v = 0 then some t else none) =
    2/5 * expL (Leaves.bernoulliLL (99/100) t) + 3/5 * expL (Leaves.bernoulliLL (49/100) t) := by
  unfold likelihood exMpe
  have hC : C (leaf [0] 2 1 fun _ ch _ => Leaves.bernoulliLL (if ch = 0 then 99/100 else 49/100)) = 2 := rfl
  show ∏ f ∈ Finset.range 1, _ = _
  rw [Finset.prod_range_one, expL_featAt_sum Nat.one_pos, hC, Finset.sum_range_succ, Finset.sum_range_one,
    featAt_leaf (v := 0) rfl, featAt_leaf (v := 0) rfl]
  have hw : ∀ ci < 2, weight (leaf [0] 2 1 fun _ ch _ => Leaves.bernoulliLL (if ch = 0 then 99/100 else 49/100))
      (fun _ ci _ _ => logL (if ci = 0 then 2/5 else 3/5)) 0 ci 0 (bc 1 0) = if ci = 0 then 2/5 else 3/5 := by
    intro ci hci
    unfold weight
    rw [softmax_eq, hC]
    simp only [Finset.sum_range_succ, Finset.sum_range_zero]
    rcases (by omega : ci = 0 ∨ ci = 1) with rfl | rfl <;>
    · simp [expL_logL (show (0:ℝ) ≤ 2/5 by norm_num), expL_logL (show (0:ℝ) ≤ 3/5 by norm_num)]
      norm_num
  rw [hw 0 (by decide), hw 1 (by decide)]
  simp

/-- C15 is false for mixtures, even with nothing observed and correct leaf modes: `mpe()` on `exMpe` follows the
heavier component and returns 0, which has likelihood 31/100, while 1 has likelihood 69/100. -/
theorem C15_mixture_not_optimal (mode : (ℝ → LogV) → ℝ) (hm : ModeOk mode exMpe) :
    Accepted exMpe ∧ ∃ z x, (sampleData exMpe fun _ => none).mpeRun mode = .ok z ∧
      Completes exMpe (fun _ => none) z ∧ Completes exMpe (fun _ => none) x ∧
      likelihood exMpe z = 31/100 ∧ likelihood exMpe x = 69/100 := by
  have hA : Accepted exMpe := ⟨rfl, le_rfl, fun f _ co _ r _ => ⟨0, by show 0 < 2; decide, by norm_num [logL]⟩⟩
  have hmode : mode (Leaves.bernoulliLL (49/100)) = 0 := by
    have := hm 0 Nat.one_pos 1 (by decide) 0 Nat.one_pos 0
    simp only [one_ne_zero, if_false] at this
    rw [← expL_le_iff] at this
    generalize mode (Leaves.bernoulliLL (49/100)) = m at this
    simp only [Leaves.bernoulliLL] at this
    rw [if_neg zero_ne_one, if_pos trivial, expL_logL (by norm_num)] at this
    split_ifs at this with h1 h0
    · rw [expL_logL (by norm_num)] at this; norm_num at this
    · exact h0
    · norm_num at this
  have hs : (scope exMpe).query = [0] := rfl
  have hcomp : ∀ t : ℝ, Completes exMpe (fun _ => none) (fun v => if v = 0 then some t else none) := by
    intro t
    refine ⟨fun v hv => ?_, fun v s hv => by simp at hv, fun v hv => ?_⟩
    · rw [hs] at hv
      have : v = 0 := by simpa using hv
      simp [this]
    · rw [hs] at hv
      have : v ≠ 0 := by simpa using hv
      simp [this]
  refine ⟨hA, (fun v => if v = 0 then some 0 else none), (fun v => if v = 0 then some 1 else none), ?_,
    hcomp 0, hcomp 1, ?_, ?_⟩
  · unfold sampleData exMpe
    rw [sample_sum hA ⟨Nat.one_pos, Nat.one_pos⟩ (fun _ _ => Nat.one_pos), mpeRun_bind]
    have hF : F (leaf [0] 2 1 fun _ ch _ => Leaves.bernoulliLL (if ch = 0 then 99/100 else 49/100)) = 0 + 1 := rfl
    have hC : C (leaf [0] 2 1 fun _ ch _ => Leaves.bernoulliLL (if ch = 0 then 99/100 else 49/100)) = 2 := rfl
    rw [hF, hC, pickAll, pickAll]
    simp only [Prog.bind]
    rw [(mpeRun_choose_two mode _ _).2 (by
      simp only [sumLogits, if_true, one_ne_zero, if_false]
      exact logL_lt (by norm_num) (by norm_num))]
    simp only [mpeRun]
    rw [sample_leaf (by decide) (fun f hf => by
      have : f < 1 := hf
      obtain rfl : f = 0 := by omega
      simp) Nat.one_pos]
    simp only [List.length_cons, List.length_nil, List.ofFn_succ, List.ofFn_zero, seqAll, mpeRun_bind]
    simp [sampleCell, mpeRun, hmode]
    funext v
    by_cases hv : v = 0
    · subst hv; simp
    · simp [hv]
  · rw [exMpe_value]
    simp [Leaves.bernoulliLL, expL_logL (show (0:ℝ) ≤ 1 - 99/100 by norm_num),
      expL_logL (show (0:ℝ) ≤ 1 - 49/100 by norm_num)]
    norm_num
  · rw [exMpe_value]
    simp [Leaves.bernoulliLL, expL_logL (show (0:ℝ) ≤ 99/100 by norm_num),
      expL_logL (show (0:ℝ) ≤ 49/100 by norm_num)]
    norm_num

/-- Mixture with weights 3/5, 2/5 of Uniform(0,1)² and Uniform(2,3)² over variables 0 and 1. -/
noncomputable def exMpe2 : Circ :=
  sum (prod (leaf [0, 1] 2 1 fun _ ch _ => if ch = 0 then Leaves.uniformLL 0 1 else Leaves.uniformLL 2 3)) 1 1
    fun _ ci _ _ => logL (if ci = 0 then 3/5 else 2/5)

theorem exMpe2_value (s t : ℝ) : likelihood exMpe2 (fun v => if v = 0 then some s else if v = 1 then some t else none) =
    3/5 * (expL (Leaves.uniformLL 0 1 s) * expL (Leaves.uniformLL 0 1 t)) +
    2/5 * (expL (Leaves.uniformLL 2 3 s) * expL (Leaves.uniformLL 2 3 t)) := by
  unfold likelihood exMpe2
  set lf := leaf [0, 1] 2 1 fun _ ch _ => if ch = 0 then Leaves.uniformLL 0 1 else Leaves.uniformLL 2 3 with hlf
  have hC : C (prod lf) = 2 := rfl
  have hF : F lf = 2 := rfl
  show ∏ f ∈ Finset.range 1, _ = _
  rw [Finset.prod_range_one, expL_featAt_sum Nat.one_pos, hC, Finset.sum_range_succ, Finset.sum_range_one,
    expL_featAt_prod, expL_featAt_prod, hF]
  simp only [Finset.prod_range_succ, Finset.prod_range_zero, one_mul]
  rw [hlf, featAt_leaf (f := 0) (v := 0) rfl, featAt_leaf (f := 1) (v := 1) rfl,
    featAt_leaf (f := 0) (v := 0) rfl, featAt_leaf (f := 1) (v := 1) rfl]
  have hw : ∀ ci < 2, weight (prod lf)
      (fun _ ci _ _ => logL (if ci = 0 then 3/5 else 2/5)) 0 ci 0 (bc 1 0) = if ci = 0 then 3/5 else 2/5 := by
    intro ci hci
    unfold weight
    rw [softmax_eq, hC]
    simp only [Finset.sum_range_succ, Finset.sum_range_zero]
    rcases (by omega : ci = 0 ∨ ci = 1) with rfl | rfl <;>
    · simp [expL_logL (show (0:ℝ) ≤ 2/5 by norm_num), expL_logL (show (0:ℝ) ≤ 3/5 by norm_num)]
      norm_num
  rw [← hlf, hw 0 (by decide), hw 1 (by decide)]
  simp

/-- `mpe(data=e)` ignores the evidence when it chooses mixture components: for `exMpe2` and the evidence x0 = 5/2
it returns a completion of likelihood 0, while (5/2, 5/2) has likelihood 2/5. -/
theorem C15_evidence_ignored (mode : (ℝ → LogV) → ℝ) (hm : ModeOk mode exMpe2) :
    Accepted exMpe2 ∧ ∃ z x, (sampleData exMpe2 fun v => if v = 0 then some (5/2) else none).mpeRun mode = .ok z ∧
      Completes exMpe2 (fun v => if v = 0 then some (5/2) else none) z ∧
      Completes exMpe2 (fun v => if v = 0 then some (5/2) else none) x ∧
      likelihood exMpe2 z = 0 ∧ likelihood exMpe2 x = 2/5 := by
  have hA : Accepted exMpe2 := ⟨rfl, le_rfl, fun f _ co _ r _ => ⟨0, by show 0 < 2; decide, by norm_num [logL]⟩⟩
  have hmode : 0 ≤ mode (Leaves.uniformLL 0 1) ∧ mode (Leaves.uniformLL 0 1) < 1 := by
    have := hm 0 (by decide) 0 (by decide) 0 Nat.one_pos 0
    simp only [if_true] at this
    generalize mode (Leaves.uniformLL 0 1) = m at this
    simp only [Leaves.uniformLL] at this
    by_contra hc
    rw [if_neg hc] at this
    simp at this
  have hs : (scope exMpe2).query = [0, 1] := rfl
  have hcomp : ∀ t : ℝ, Completes exMpe2 (fun v => if v = 0 then some (5/2) else none)
      (fun v => if v = 0 then some (5/2) else if v = 1 then some t else none) := by
    intro t
    refine ⟨fun v hv => ?_, fun v s hv => ?_, fun v hv => ?_⟩
    · rw [hs] at hv
      rcases (by simpa using hv : v = 0 ∨ v = 1) with rfl | rfl <;> simp
    · by_cases h : v = 0
      · simpa [h] using hv
      · simp [h] at hv
    · rw [hs] at hv
      have : v ≠ 0 ∧ v ≠ 1 := by simpa using hv
      simp [this.1, this.2]
  refine ⟨hA, (fun v => if v = 0 then some (5/2) else if v = 1 then some (mode (Leaves.uniformLL 0 1)) else none),
    (fun v => if v = 0 then some (5/2) else if v = 1 then some (5/2) else none), ?_, hcomp _, hcomp _, ?_, ?_⟩
  · unfold sampleData exMpe2
    rw [sample_sum hA ⟨Nat.one_pos, Nat.one_pos⟩ (fun _ _ => Nat.one_pos), mpeRun_bind]
    set lf := leaf [0, 1] 2 1 fun _ ch _ => if ch = 0 then Leaves.uniformLL 0 1 else Leaves.uniformLL 2 3 with hlf
    have hF : F (prod lf) = 0 + 1 := rfl
    have hC : C (prod lf) = 2 := rfl
    rw [hF, hC, pickAll, pickAll]
    simp only [Prog.bind]
    rw [(mpeRun_choose_two mode _ _).1 (by
      simp only [sumLogits, if_true, one_ne_zero, if_false]
      exact (logL_lt (by norm_num) (by norm_num)).le)]
    simp only [mpeRun]
    rw [sample_prod (c := lf) rfl (by show 1 ≤ 2; decide) Nat.one_pos (by show _ < 2; simp), hlf,
      sample_leaf (by decide) (fun f hf => by simp) Nat.one_pos]
    simp only [List.length_cons, List.length_nil, List.ofFn_succ, List.ofFn_zero, seqAll, mpeRun_bind]
    simp [sampleCell, mpeRun]
    funext v
    by_cases hv : v = 0
    · subst hv; simp
    · by_cases hv1 : v = 1
      · subst hv1; simp
      · simp [hv, hv1]
  · rw [exMpe2_value]
    have h1 : ¬ ((0:ℝ) ≤ 5/2 ∧ (5/2:ℝ) < 1) := by norm_num
    have h2 : ¬ ((2:ℝ) ≤ mode (Leaves.uniformLL 0 1) ∧ mode (Leaves.uniformLL 0 1) < 3) := by
      rintro ⟨h, _⟩; linarith [hmode.2]
    have e1 : Leaves.uniformLL 0 1 (5/2) = ⊥ := if_neg h1
    have e2 : Leaves.uniformLL 2 3 (mode (Leaves.uniformLL 0 1)) = ⊥ := if_neg h2
    rw [e1, e2]; simp
  · rw [exMpe2_value]
    have h1 : ¬ ((0:ℝ) ≤ 5/2 ∧ (5/2:ℝ) < 1) := by norm_num
    have e1 : Leaves.uniformLL 0 1 (5/2) = ⊥ := if_neg h1
    have e2 : expL (Leaves.uniformLL 2 3 (5/2)) = 1 := by
      unfold Leaves.uniformLL
      rw [if_pos (by norm_num), expL_coe]; norm_num
    rw [e1, e2]; simp

end Circ
end Verif

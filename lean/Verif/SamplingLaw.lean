import Verif.SamplingLemmas
import Mathlib.Algebra.BigOperators.Field

/-! Helper lemmas for `SamplingProps.lean`: the distribution of `_sample` with cached likelihoods. -/

namespace Verif
namespace Circ

open Prog

theorem expL_zero_mono {c : Circ} (h : Accepted c) {r : ℕ} {e z : Row}
    (hez : ∀ v, e v ≠ none → z v = e v) :
    ∀ {f ch : ℕ}, f < F c → ch < C c → expL (featAt (den c) f e r ch) = 0 → expL (featAt (den c) f z r ch) = 0 := by
  induction c with
  | leaf q C R d =>
    intro f ch hf hch h0
    have hq : q[f]? = some q[f] := by simp only [F] at hf; simp [hf]
    rw [featAt_leaf hq] at h0 ⊢
    rcases hev : e q[f] with _ | t
    · rw [hev] at h0; simp at h0
    · rw [hez _ (by rw [hev]; simp), hev]; rw [hev] at h0; exact h0
  | cat1 n cs ih =>
    intro f ch hf hch
    obtain ⟨i, j, hj, rfl⟩ := exists_cat1_index hf
    rw [featAt_cat1 i hj, featAt_cat1 i hj]
    exact ih i (h.1 i) hj (by rwa [cat1_C h.2 i])
  | cat2 n cs ih =>
    intro f ch hf hch
    obtain ⟨i, k, hk, rfl⟩ := exists_cat2_index hch
    rw [featAt_cat2 i hf hk, featAt_cat2 i hf hk]
    exact ih i (h.1 i) (by rwa [cat2_F h.2 i]) hk
  | prod c ih =>
    intro f ch hf hch
    obtain rfl : f = 0 := by simp only [F] at hf; omega
    rw [expL_featAt_prod, expL_featAt_prod, Finset.prod_eq_zero_iff, Finset.prod_eq_zero_iff]
    rintro ⟨g, hg, h0⟩
    exact ⟨g, hg, ih h (Finset.mem_range.1 hg) hch h0⟩
  | sum c Co R θ ih =>
    intro f ch hf hch
    rw [expL_featAt_sum (show f < F c from hf), expL_featAt_sum (show f < F c from hf)]
    intro h0
    have hnn : ∀ (w : Row), ∀ ci ∈ Finset.range (C c),
        0 ≤ weight c θ f ci ch (bc R r) * expL (featAt (den c) f w r ci) :=
      fun w ci _ => mul_nonneg (softmax_nonneg _ _ _) (expL_nonneg _)
    rw [Finset.sum_eq_zero_iff_of_nonneg (hnn e)] at h0
    refine Finset.sum_eq_zero fun ci hci => ?_
    rcases mul_eq_zero.1 (h0 ci hci) with h1 | h1
    · rw [h1, zero_mul]
    · rw [ih h.1 hf (Finset.mem_range.1 hci) h1, mul_zero]

/-- ratio of likelihoods of feature `f`, channel `ch` -/
noncomputable def ratio (c : Circ) (r : ℕ) (e z : Row) (f ch : ℕ) : ENNReal :=
  ENNReal.ofReal (expL (featAt (den c) f z r ch) / expL (featAt (den c) f e r ch))

/-- product of the ratios of the active features -/
noncomputable def ratios (c : Circ) (r : ℕ) (e : Row) (ch : ℕ → ℕ) (mask : ℕ → Bool) (z : Row) : ENNReal :=
  ∏ f ∈ Finset.range (F c), if mask f then ratio c r e z f (ch f) else 1

theorem ratios_local {c : Circ} (h : Accepted c) (hal : Aligned c) {r : ℕ} {e : Row} {ch : ℕ → ℕ} {mask : ℕ → Bool}
    (hch : ∀ f < F c, ch f < C c) : LocalOn (act c mask) (ratios c r e ch mask) := by
  intro z z' hz
  unfold ratios
  refine Finset.prod_congr rfl fun f hf => ?_
  rw [Finset.mem_range] at hf
  split
  · rename_i hm
    unfold ratio
    rw [featAt_local h hal hf (hch f hf) fun v hv => hz v ⟨f, hf, hm, hv⟩]
  · rfl

theorem prod_ofFn_range {M : Type*} [CommMonoid M] {n : ℕ} (G : Fin n → M) : (List.ofFn G).prod = ∏ i, G i :=
  List.prod_ofFn

theorem offF_lt {n : ℕ} {cs : Fin n → Circ} (i : Fin n) {k : ℕ} (hk : k < F (cs i)) :
    offF cs i + k < F (cat1 n cs) := by
  have h1 : i.val < (List.ofFn fun j => F (cs j)).length := by simp
  have h2 : (List.ofFn fun j => F (cs j)).sum =
      ((List.ofFn fun j => F (cs j)).take i).sum + ((List.ofFn fun j => F (cs j)).drop i).sum := by
    rw [← List.sum_append, List.take_append_drop]
  rw [List.drop_eq_getElem_cons h1] at h2
  simp only [F, offF]
  rw [h2]
  simp
  omega

theorem offF_disj {n : ℕ} (cs : Fin n → Circ) {i j : Fin n} (hij : i < j) {k k' : ℕ} (hk : k < F (cs i)) :
    offF cs i + k ≠ offF cs j + k' := by
  have := take_sum_le (List.ofFn fun k => F (cs k)) (i := i) (j := j) (by simp) hij
  simp at this
  unfold offF
  omega

theorem law_congr {s : Row → Prog Row} {A A' : Set Var} {e : Row} {ρ ρ' : Row → ENNReal} (hA : A' = A)
    (hρ : ∀ z, ρ' z = ρ z) (h : Law s A e ρ) : Law s A' e ρ' := by
  subst hA
  intro y z h1 h2 h3
  rw [hρ]; exact h y z h1 h2 h3

theorem blk_map_s {n : ℕ} (b : Fin n → Blk) : (List.ofFn b).map Blk.s = List.ofFn fun i => (b i).s := by
  simp [List.map_ofFn, Function.comp_def]

theorem sample_law {r : ℕ} {c : Circ} (h : Accepted c) (hal : Aligned c) (hp : PosCh c) (hr : RepS r c) {e : Row}
    (hlive : Live e r c) : ∀ (ch : ℕ → ℕ) (mask : ℕ → Bool), (∀ f < F c, ch f < C c) →
      (∀ f < F c, mask f = true → expL (featAt (den c) f e r (ch f)) ≠ 0) →
      Law (sample (some e) r c ch mask) (act c mask) e (ratios c r e ch mask) := by
  induction c with
  | leaf q C R d =>
    intro ch mask hch hpos
    have es : sample (some e) r (leaf q C R d) ch mask =
        seqAll (List.ofFn fun i : Fin q.length => sampleCell (d i (ch i) r) (mask i) q[i]) :=
      funext fun y => sample_leaf hp hch hr y
    have hval : ∀ (x : Row) (i : Fin q.length), featAt (den (leaf q C R d)) i x r (ch i) =
        cellVal (d i (ch i) r) (x q[i]) := by
      intro x i
      have hq : q[i.val]? = some q[i] := by simp
      rw [featAt_leaf hq, bc_of_lt hr]
      cases x q[i] <;> rfl
    set b : Fin q.length → Blk := fun i => ⟨sampleCell (d i (ch i) r) (mask i) q[i],
      {w | mask i = true ∧ w = q[i]}, fun z => if mask i then
        ENNReal.ofReal (expL (cellVal (d i (ch i) r) (z q[i])) / expL (cellVal (d i (ch i) r) (e q[i]))) else 1⟩
      with hb
    have hlaw := seqAll_law (e := e) (List.ofFn b)
      (by
        intro x hx; rw [List.mem_ofFn] at hx; obtain ⟨i, rfl⟩ := hx
        exact sampleCell_frames _ _ _)
      (by
        intro x hx; rw [List.mem_ofFn] at hx; obtain ⟨i, rfl⟩ := hx
        refine sampleCell_law _ _ _ _ fun hm => ?_
        have := hpos i i.2 hm
        rw [hval, Ne, expL_eq_zero_iff] at this
        exact this)
      (by
        intro x hx; rw [List.mem_ofFn] at hx; obtain ⟨i, rfl⟩ := hx
        intro z z' hz
        simp only [hb]
        split
        · rename_i hm
          rw [hz q[i] ⟨hm, rfl⟩]
        · rfl)
      (by
        rw [List.pairwise_iff_getElem]
        intro i j hi hj hij
        simp only [List.getElem_ofFn, hb]
        rw [Set.disjoint_left]
        rintro v ⟨-, hv⟩ ⟨-, hv'⟩
        have hnd := (Accepted.leaf_valid h).query_nodup
        simp only [List.length_ofFn] at hi hj
        have : q[i] = q[j] := hv.symm.trans hv'
        have := (List.Nodup.getElem_inj_iff hnd).1 this
        omega)
    rw [blk_map_s] at hlaw
    rw [es]
    refine law_congr ?_ ?_ hlaw
    · ext v
      rw [act_leaf]
      simp [List.mem_ofFn, hb]
    · intro z
      simp only [List.map_ofFn, Function.comp_def, prod_ofFn_range]
      unfold ratios ratio
      show ∏ f ∈ Finset.range q.length, _ = _
      rw [Finset.prod_range]
      refine Finset.prod_congr rfl fun i _ => ?_
      rw [hval, hval]
  | cat1 n cs ih =>
    intro ch mask hch hpos
    have es : sample (some e) r (cat1 n cs) ch mask = seqAll (List.ofFn fun i : Fin n =>
        sample (some e) r (cs i) (fun f => ch (offF cs i + f)) (fun f => mask (offF cs i + f))) :=
      funext fun y => sample_cat1 h hp hr hch y
    have hchild : ∀ i, ∀ f < F (cs i), ch (offF cs i + f) < C (cs i) := by
      intro i f hf
      rw [cat1_C h.2 i]
      exact hch _ (offF_lt i hf)
    set b : Fin n → Blk := fun i => ⟨sample (some e) r (cs i) (fun f => ch (offF cs i + f))
        (fun f => mask (offF cs i + f)), act (cs i) (fun f => mask (offF cs i + f)),
        ratios (cs i) r e (fun f => ch (offF cs i + f)) (fun f => mask (offF cs i + f))⟩ with hb
    have hlaw := seqAll_law (e := e) (List.ofFn b)
      (by
        intro x hx; rw [List.mem_ofFn] at hx; obtain ⟨i, rfl⟩ := hx
        exact (sample_ok (h.1 i) (hal i) (hp i) (hr i)
          (fun e' he => by cases he; exact hlive i) _ _ (hchild i)).2)
      (by
        intro x hx; rw [List.mem_ofFn] at hx; obtain ⟨i, rfl⟩ := hx
        refine ih i (h.1 i) (hal i) (hp i) (hr i) (hlive i) _ _ (hchild i) fun f hf hm => ?_
        have := hpos _ (offF_lt i hf) hm
        rwa [featAt_cat1 i hf] at this)
      (by
        intro x hx; rw [List.mem_ofFn] at hx; obtain ⟨i, rfl⟩ := hx
        exact ratios_local (h.1 i) (hal i) (hchild i))
      (by
        rw [List.pairwise_iff_getElem]
        intro i j hi hj hij
        simp only [List.getElem_ofFn, hb]
        rw [Set.disjoint_left]
        rintro v ⟨f, hf, -, hv⟩ ⟨g, hg, -, hv'⟩
        simp only [List.length_ofFn] at hi hj
        rw [← fscope_cat1 ⟨i, hi⟩ hf] at hv
        rw [← fscope_cat1 ⟨j, hj⟩ hg] at hv'
        exact Finset.disjoint_left.1 (fscope_disjoint h (offF_lt ⟨i, hi⟩ hf) (offF_lt ⟨j, hj⟩ hg)
          (offF_disj cs (i := ⟨i, hi⟩) (j := ⟨j, hj⟩) hij hf)) hv hv')
    rw [blk_map_s] at hlaw
    rw [es]
    refine law_congr ?_ ?_ hlaw
    · ext v
      rw [act_cat1]
      simp [List.mem_ofFn, hb]
    · intro z
      simp only [List.map_ofFn, Function.comp_def, prod_ofFn_range]
      unfold ratios
      rw [prod_cat1]
      refine Finset.prod_congr rfl fun i _ => Finset.prod_congr rfl fun f hf => ?_
      unfold ratio
      rw [featAt_cat1 i (Finset.mem_range.1 hf), featAt_cat1 i (Finset.mem_range.1 hf)]
  | cat2 n cs ih =>
    intro ch mask hch hpos
    have es : sample (some e) r (cat2 n cs) ch mask = _ := funext fun y => sample_cat2 h hp hr hch y
    set lch : Fin n → ℕ → ℕ := fun i f =>
      if offC cs i ≤ ch f ∧ ch f < offC cs i + C (cs i) then ch f - offC cs i else 0 with hlch
    set lm : Fin n → ℕ → Bool := fun i f =>
      decide (offC cs i ≤ ch f ∧ ch f < offC cs i + C (cs i)) && mask f with hlm
    have hchild : ∀ i, ∀ f < F (cs i), lch i f < C (cs i) := by
      intro i f hf
      have := posC (h.1 i) (hp i)
      simp only [hlch]
      split <;> omega
    have hfeat : ∀ (x : Row) (i : Fin n) f, f < F (cs i) → lm i f = true →
        featAt (den (cs i)) f x r (lch i f) = featAt (den (cat2 n cs)) f x r (ch f) := by
      intro x i f hf hm
      simp only [hlm, Bool.and_eq_true, decide_eq_true_eq] at hm
      simp only [hlch, if_pos hm.1]
      rw [← featAt_cat2 i (by rwa [← cat2_F h.2 i]) (by omega)]
      congr 1
      omega
    set b : Fin n → Blk := fun i => ⟨sample (some e) r (cs i) (lch i) (lm i), act (cs i) (lm i),
        ratios (cs i) r e (lch i) (lm i)⟩ with hb
    have hlaw := seqAll_law (e := e) (List.ofFn b)
      (by
        intro x hx; rw [List.mem_ofFn] at hx; obtain ⟨i, rfl⟩ := hx
        exact (sample_ok (h.1 i) (hal.1 i) (hp i) (hr i)
          (fun e' he => by cases he; exact hlive i) _ _ (hchild i)).2)
      (by
        intro x hx; rw [List.mem_ofFn] at hx; obtain ⟨i, rfl⟩ := hx
        refine ih i (h.1 i) (hal.1 i) (hp i) (hr i) (hlive i) _ _ (hchild i) fun f hf hm => ?_
        rw [hfeat e i f hf hm]
        simp only [hlm, Bool.and_eq_true] at hm
        exact hpos f (by rwa [← cat2_F h.2 i]) hm.2)
      (by
        intro x hx; rw [List.mem_ofFn] at hx; obtain ⟨i, rfl⟩ := hx
        exact ratios_local (h.1 i) (hal.1 i) (hchild i))
      (by
        rw [List.pairwise_iff_getElem]
        intro i j hi hj hij
        simp only [List.getElem_ofFn, hb]
        rw [Set.disjoint_left]
        rintro v ⟨f, hf, hm, hv⟩ ⟨g, hg, hm', hv'⟩
        simp only [List.length_ofFn] at hi hj
        rw [← fscope_cat2 hal.2 ⟨i, hi⟩] at hv
        rw [← fscope_cat2 hal.2 ⟨j, hj⟩] at hv'
        have hf' : f < F (cat2 n cs) := by rwa [cat2_F h.2 ⟨i, hi⟩] at hf
        have hg' : g < F (cat2 n cs) := by rwa [cat2_F h.2 ⟨j, hj⟩] at hg
        have hfg : f = g := by
          by_contra hne
          exact Finset.disjoint_left.1 (fscope_disjoint h hf' hg' hne) hv hv'
        subst hfg
        simp only [hlm, Bool.and_eq_true, decide_eq_true_eq] at hm hm'
        have := owner_unique cs (i := ⟨i, hi⟩) (j := ⟨j, hj⟩) hm.1 hm'.1
        simp only [Fin.mk.injEq] at this
        omega)
    rw [blk_map_s] at hlaw
    rw [es]
    refine law_congr ?_ ?_ hlaw
    · ext v
      rw [act_cat2 h hal hch]
      simp only [List.mem_ofFn, Set.mem_ofPred_eq, hb]
      constructor
      · rintro ⟨i, hi⟩; exact ⟨_, ⟨i, rfl⟩, hi⟩
      · rintro ⟨_, ⟨i, rfl⟩, hi⟩; exact ⟨i, hi⟩
    · intro z
      simp only [List.map_ofFn, Function.comp_def, prod_ofFn_range]
      have e1 : ∀ i : Fin n, (b i).ρ z = ∏ f ∈ Finset.range (F (cat2 n cs)),
          if lm i f then ratio (cat2 n cs) r e z f (ch f) else 1 := by
        intro i
        show ratios (cs i) r e (lch i) (lm i) z = _
        unfold ratios
        rw [cat2_F h.2 i]
        refine Finset.prod_congr rfl fun f hf => ?_
        split
        · rename_i hm
          unfold ratio
          have hf' : f < F (cs i) := by rw [cat2_F h.2 i]; exact Finset.mem_range.1 hf
          rw [hfeat _ i f hf' hm, hfeat _ i f hf' hm]
        · rfl
      simp only [e1]
      rw [Finset.prod_comm]
      unfold ratios
      refine Finset.prod_congr rfl fun f hf => ?_
      obtain ⟨i, k, hk, he⟩ := exists_cat2_index (hch f (Finset.mem_range.1 hf))
      have hown : offC cs i ≤ ch f ∧ ch f < offC cs i + C (cs i) := by omega
      rw [Finset.prod_eq_single i]
      · simp [hlm, hown]
      · intro j _ hj
        have : ¬ (offC cs j ≤ ch f ∧ ch f < offC cs j + C (cs j)) := fun hh => hj (owner_unique cs hh hown)
        have hz : lm j f = false := by simp only [hlm, this, decide_false, Bool.false_and]
        simp [hz]
      · simp
  | prod c ih =>
    intro ch mask hch hpos
    replace h : Accepted c := h
    replace hal : Aligned c := hal
    replace hp : PosCh c := hp
    replace hr : RepS r c := hr
    replace hlive : Live e r c := hlive
    have h0 : ch 0 < C c := hch 0 (by simp [F])
    have es : sample (some e) r (prod c) ch mask = sample (some e) r c (fun _ => ch 0) (fun _ => mask 0) :=
      funext fun y => sample_prod h hp hr h0 y
    have hpos0 := hpos 0 (by simp [F])
    rw [expL_featAt_prod] at hpos0
    rw [es]
    refine law_congr (Set.ext fun v => act_prod c mask v) ?_ (ih h hal hp hr hlive _ _ (fun f _ => h0) ?_)
    · intro z
      unfold ratios
      show ∏ f ∈ Finset.range 1, _ = _
      rw [Finset.prod_range_one]
      cases hm : mask 0 with
      | false => simp
      | true =>
        simp only [if_true]
        unfold ratio
        rw [expL_featAt_prod, expL_featAt_prod, ← Finset.prod_div_distrib,
          ENNReal.ofReal_prod_of_nonneg fun f _ => div_nonneg (expL_nonneg _) (expL_nonneg _)]
    · intro f hf hm
      exact Finset.prod_ne_zero_iff.1 (hpos0 hm) f (Finset.mem_range.2 hf)
  | sum c Co R θ ih =>
    intro ch mask hch hpos
    replace hch : ∀ f < F c, ch f < Co := hch
    have es : sample (some e) r (sum c Co R θ) ch mask = _ := funext fun y => sample_sum h hr hch y
    rw [es, act_sum]
    intro y z hy hz hzy
    have hez : ∀ v ∈ act c mask, e v ≠ none → z v = e v := by
      intro v hv hne
      rw [← hy v hv] at hne ⊢
      exact hzy v fun hh => hne hh.2
    set z' : Row := fun v => open Classical in if v ∈ act c mask then z v else e v with hz'
    have hz'e : ∀ v, e v ≠ none → z' v = e v := by
      intro v hne
      simp only [hz']
      split
      · rename_i hv; exact hez v hv hne
      · rfl
    have hzz' : ∀ f < F c, mask f = true → ∀ ci < C c, featAt (den c) f z r ci = featAt (den c) f z' r ci := by
      intro f hf hm ci hci
      refine featAt_local h.1 hal hf hci fun v hv => ?_
      have : v ∈ act c mask := ⟨f, hf, hm, hv⟩
      simp [hz', this]
    have step : ((fun y => (pickAll (C c) (sumLogits (some e) r c θ ch) (F c)).bind
        fun ch' => sample (some e) r c ch' mask y) y).prob z =
        (pickAll (C c) (sumLogits (some e) r c θ ch) (F c)).E fun ch' => (sample (some e) r c ch' mask y).prob z := by
      unfold prob; rw [E_bind]
    rw [step]
    have hsm : ∀ f < F c, ∀ ci, softmax (C c) (sumLogits (some e) r c θ ch f) ci =
        weight c θ f ci (ch f) r * expL (featAt (den c) f e r ci) /
          expL (featAt (den (sum c Co R θ)) f e r (ch f)) := by
      intro f hf ci
      have hD : ∑ j ∈ Finset.range (C c), expL (θ f j (ch f) r) ≠ 0 := by
        obtain ⟨ci, hci, hne⟩ := h.2.2 f hf (ch f) (hch f hf) r hr.2
        exact (sum_expL_pos ⟨ci, hci, hne⟩).ne'
      have hE := hlive.2 f hf (ch f) (hch f hf)
      rw [Ne, ← expL_eq_zero_iff] at hE
      rw [softmax_eq]
      simp only [sumLogits, expL_logSoftmax]
      rw [← Finset.sum_div, div_div_div_cancel_right₀]
      · rw [expL_featAt_sum hf, bc_of_lt hr.2]
        simp only [expL_add, weight, softmax_eq, div_mul_eq_mul_div, ← Finset.sum_div]
        rw [div_div_div_cancel_right₀ hD]
      · rw [expL_featAt_sum hf, bc_of_lt hr.2] at hE
        simp only [weight, softmax_eq, div_mul_eq_mul_div, ← Finset.sum_div] at hE
        simp only [expL_add]
        exact fun h0 => hE (by rw [h0, zero_div])
    have key : (pickAll (C c) (sumLogits (some e) r c θ ch) (F c)).E
          (fun ch' => (sample (some e) r c ch' mask y).prob z) =
        (pickAll (C c) (sumLogits (some e) r c θ ch) (F c)).E fun ch' =>
          ∏ f ∈ Finset.range (F c), (fun f i => if mask f then ratio c r e z f i else 1) f (ch' f) := by
      apply pickAll_congr
      intro ch' hch'
      refine ih h.1 hal hp hr.1 hlive.1 ch' mask (fun f hf => (hch' f hf).1) ?_ y z hy hz hzy
      intro f hf _
      have := (hch' f hf).2
      rw [hsm f hf] at this
      intro h0
      rw [h0] at this
      simp at this
    rw [key, pickAll_E (fun f i => if mask f then ratio c r e z f i else 1)]
    unfold ratios
    show _ = ∏ f ∈ Finset.range (F c), _
    refine Finset.prod_congr rfl fun f hf => ?_
    rw [Finset.mem_range] at hf
    cases hm : mask f with
    | false =>
      simp only [Bool.false_eq_true, if_false, mul_one]
      rw [← ENNReal.ofReal_sum_of_nonneg fun i _ => softmax_nonneg _ _ _, sum_softmax, ENNReal.ofReal_one]
      have := sumLogits_alive (ev := some e) h hr.2 (fun e' he => by cases he; exact hlive) hf (hch f hf)
      unfold Dead at this
      push Not at this
      exact this
    | true =>
      simp only [if_true]
      unfold ratio
      rw [expL_featAt_sum hf, ← Finset.sum_congr rfl fun ci _ => ENNReal.ofReal_mul (softmax_nonneg _ _ _),
        ← ENNReal.ofReal_sum_of_nonneg fun i _ => mul_nonneg (softmax_nonneg _ _ _)
          (div_nonneg (expL_nonneg _) (expL_nonneg _)), bc_of_lt hr.2, Finset.sum_div]
      congr 1
      refine Finset.sum_congr rfl fun ci hci => ?_
      rw [hsm f hf]
      by_cases h0 : expL (featAt (den c) f e r ci) = 0
      · have : expL (featAt (den c) f z r ci) = 0 := by
          rw [hzz' f hf hm ci (Finset.mem_range.1 hci)]
          exact expL_zero_mono h.1 hz'e hf (Finset.mem_range.1 hci) h0
        rw [h0, this]; simp
      · field_simp

end Circ
end Verif

import Verif.QpcHeight
/-
C82: the folded circuit computes the circuit of the region graph.
-/
namespace Verif.Qpc
open Finset Graph

/-- Specification: unit `u` of region `r` is a mixture over the partitions of `r` of the values of the partitions, with
non-negative normalised weights that do not depend on the data. -/
def RegionForm (g : RG) (t : Bool) (K : ℕ) (V : ℕ → ℕ → (Var → ℝ) → ℝ) (r u : ℕ) : Prop :=
  ∃ (m : ℕ → ℝ) (W : ℕ → ℕ → ℕ → ℝ), (∀ j, 0 ≤ m j) ∧ ∑ j ∈ range (g.parts r).length, m j = 1 ∧
    (∀ j < (g.parts r).length, WOk t K ((g.parts r).getD j []).length (W j)) ∧
    ∀ x, V r u x = ∑ j ∈ range (g.parts r).length, m j * partVal t K (W j) ((g.parts r).getD j []) fun c k => V c k x

/-- Specification: full tensors are used at the height of `r`: unless `layer_cls` is `cp`, exactly if every partition
of every region of that height has two parts. -/
def TensorAt (g : RG) (cls : Cls) (post : List ℕ) (hgt : ℕ → ℕ) (r : ℕ) : Prop :=
  cls ≠ .cp ∧ ∀ r' ∈ post, hgt r' = hgt r → ∀ p ∈ g.parts r', p.length = 2

theorem partVal_congr {t : Bool} {K : ℕ} {W : ℕ → ℕ → ℝ} {p : List ℕ} {v v' : ℕ → ℕ → ℝ} (ht : t = true → p.length = 2)
    (h : ∀ c ∈ p, ∀ k, v c k = v' c k) : partVal t K W p v = partVal t K W p v' := by
  have hm : ∀ i < p.length, p.getD i 0 ∈ p := fun i hi => by
    rw [List.getD_eq_getElem _ _ hi]; exact List.getElem_mem _
  unfold partVal
  cases t with
  | true =>
    have h2 := ht rfl
    simp only [if_true]
    refine sum_congr rfl fun i _ => sum_congr rfl fun j _ => ?_
    rw [h _ (hm 0 (by omega)), h _ (hm 1 (by omega))]
  | false =>
    simp only [Bool.false_eq_true, if_false]
    refine prod_congr rfl fun i hi => sum_congr rfl fun k _ => ?_
    rw [h _ (hm i (mem_range.1 hi))]

/-- Invariant of the loop over the heights, after the heights up to `n`. -/
structure Inv (g : RG) (ρ : Rule) (θ : Params) (cls : Cls) (classes : ℕ) (post : List ℕ) (root : ℕ) (hgt : ℕ → ℕ)
    (x0 : (Var → ℝ) → Ten) (loc0 : ℕ → Option (ℕ × ℕ)) (n : ℕ) (st : St) (outs : (Var → ℝ) → List Ten) : Prop where
  cur : st.counts.length = st.cur + 1
  placed : ∀ r ∈ post, hgt r ≤ n → ∃ fl, st.loc r = some fl ∧ Valid st.counts fl
  runs : ∀ x, run ρ θ [x0 x] st.steps = .ok (outs x) ∧ Lens st.counts (outs x)
  units : n < hgt root → ∀ x, ∀ t ∈ outs x, t.units = ρ.K
  leaf : ∀ r ∈ post, g.parts r = [] → ∀ x, at' (outs x) ((st.loc r).getD (0, 0)) = at' [x0 x] ((loc0 r).getD (0, 0))
  region : ∀ r ∈ post, g.parts r ≠ [] → hgt r ≤ n → ∀ u, ∃ t, (t = true ↔ TensorAt g cls post hgt r) ∧
    RegionForm g t ρ.K (fun c k x => Real.exp (at' (outs x) ((st.loc c).getD (0, 0)) k)) r u
  view : st.steps.any (badView ρ.K) = decide (n = hgt root ∧ 0 < n ∧ classes ≠ 1 ∧ classes ≠ ρ.K)
  last : n = hgt root → 0 < n → st.loc root = some (0, st.cur) ∧
    ∀ x, ∃ t, (outs x).getLast? = some t ∧ t.units = classes ∧ t.folds.length = 1

theorem level_eq {g : RG} {cls : Cls} {K classes : ℕ} {post : List ℕ} {hgt : ℕ → ℕ} {maxh h : ℕ} {st : St} {regs : List ℕ}
    (hregs : regs = post.filter fun r => decide (hgt r = h)) (hne : regs ≠ []) :
    level g cls K classes maxh post (fun r => if r ∈ post then some (hgt r) else none) st h =
      oneLevel g cls (if h < maxh then K else classes) regs st := by
  have e : (post.filter fun r => decide ((if r ∈ post then some (hgt r) else none) = some h)) = regs := by
    rw [hregs]
    refine List.filter_congr fun r hr => ?_
    simp [hr]
  unfold level oneLevel
  simp only [e]
  rw [if_neg (by simpa using hne)]
  cases partLevel g cls (if h < maxh then K else classes) regs st <;> rfl

theorem inv_step {g : RG} {ρ : Rule} {θ : Params} {cls : Cls} {classes : ℕ} {post : List ℕ} {root : ℕ} {hgt : ℕ → ℕ}
    {x0 : (Var → ℝ) → Ten} {loc0 : ℕ → Option (ℕ × ℕ)} (hρ : ρ.Pos) (hK : 0 < ρ.K) (hnd : post.Nodup)
    (hroot : root ∈ post) (hcl : ∀ r ∈ post, ∀ c ∈ g.children r, c ∈ post) (hh : IsHeight g post hgt)
    (hmax : ∀ r ∈ post, hgt r ≤ hgt root ∧ (hgt r = hgt root → r = root)) {n : ℕ} (hn : n < hgt root)
    {st : St} {outs : (Var → ℝ) → List Ten} (hI : Inv g ρ θ cls classes post root hgt x0 loc0 n st outs) :
    ∃ st' outs', level g cls ρ.K classes (hgt root) post (fun r => if r ∈ post then some (hgt r) else none) st (n + 1) =
      .ok st' ∧ Inv g ρ θ cls classes post root hgt x0 loc0 (n + 1) st' outs' := by
  obtain ⟨regs, hregs⟩ : ∃ regs, regs = post.filter fun r => decide (hgt r = n + 1) := ⟨_, rfl⟩
  have hmem : ∀ r, r ∈ regs ↔ r ∈ post ∧ hgt r = n + 1 := by
    intro r; rw [hregs]; simp
  have hrn : regs.Nodup := by rw [hregs]; exact hnd.filter _
  have hpne : ∀ r ∈ regs, g.parts r ≠ [] := by
    intro r hr e
    obtain ⟨h1, h2⟩ := (hmem r).1 hr
    have := (hh r h1).1 e
    omega
  -- some region of height n + 1 exists: descend from the root
  have hex : ∃ r, r ∈ regs := by
    have key : ∀ d r, r ∈ post → hgt r = n + 1 + d → ∃ r, r ∈ regs := by
      intro d
      induction d with
      | zero => exact fun r hr h => ⟨r, (hmem r).2 ⟨hr, h⟩⟩
      | succ d ih =>
        intro r hr h
        have hne : g.parts r ≠ [] := fun e => by have := (hh r hr).1 e; omega
        obtain ⟨c, hc, e⟩ := ((hh r hr).2 hne).2
        exact ih c (hcl r hr c hc) (by omega)
    exact key (hgt root - (n + 1)) root hroot (by omega)
  have hrne : regs ≠ [] := by
    obtain ⟨r, hr⟩ := hex
    exact List.ne_nil_of_mem hr
  have hchild : ∀ r ∈ regs, ∀ p ∈ g.parts r, ∀ c ∈ p, c ∈ post ∧ hgt c ≤ n := by
    intro r hr p hp c hc
    obtain ⟨h1, h2⟩ := (hmem r).1 hr
    have hcc : c ∈ g.children r := List.mem_flatten.2 ⟨p, hp, hc⟩
    have := ((hh r h1).2 (hpne r hr)).1 c hcc
    exact ⟨hcl r h1 c hcc, by omega⟩
  obtain ⟨st', ss, tag, ts, k1, k2, k3, ⟨cs, k4⟩, k5, k6, k7, k8, k9, k10⟩ :=
    oneLevel_ok (θ := θ) (cls := cls) (out := if n + 1 < hgt root then ρ.K else classes) (st := st) hρ hK hrn hrne hpne
      hI.cur fun r hr p hp c hc => hI.placed c (hchild r hr p hp c hc).1 (hchild r hr p hp c hc).2
  have hU := hI.units hn
  have hL : ∀ x, Lens st.counts (outs x) := fun x => (hI.runs x).2
  have hstable : ∀ r ∈ post, hgt r ≤ n → ∀ x, at' (outs x ++ ts (outs x)) ((st'.loc r).getD (0, 0)) =
      at' (outs x) ((st.loc r).getD (0, 0)) := by
    intro r hr hle x
    rw [k5 r fun h => by have := ((hmem r).1 h).2; omega]
    obtain ⟨fl, e, hv⟩ := hI.placed r hr hle
    rw [e, Option.getD_some]
    exact at'_append (by rw [(hL x).1]; exact hv.1) _
  refine ⟨st', fun x => outs x ++ ts (outs x), by rw [level_eq hregs hrne]; exact k1, ?_⟩
  constructor
  · exact k2
  · intro r hr hle
    by_cases h : r ∈ regs
    · obtain ⟨fl, e, hv, _⟩ := k6 r h
      exact ⟨fl, e, hv⟩
    · have : hgt r ≠ n + 1 := fun e => h ((hmem r).2 ⟨hr, e⟩)
      obtain ⟨fl, e, hv⟩ := hI.placed r hr (by omega)
      exact ⟨fl, by rw [k5 r h]; exact e, by rw [k4]; exact valid_append hv⟩
  · intro x
    have := k9 (outs x) (hL x) (hU x)
    refine ⟨?_, this.2.1⟩
    rw [k3, run_append, (hI.runs x).1]
    exact this.1
  · intro hlt x t ht
    rcases List.mem_append.1 ht with h | h
    · exact hU x t h
    · rw [(k9 (outs x) (hL x) (hU x)).2.2.2 t h, if_pos hlt]
  · intro r hr hl x
    have h0 := (hh r hr).1 hl
    rw [hstable r hr (by omega) x]
    exact hI.leaf r hr hl x
  · intro r hr hl hle u
    by_cases h : r ∈ regs
    · refine ⟨tag, ?_, ?_⟩
      · rw [k7]
        unfold TensorAt
        rw [((hmem r).1 h).2]
        refine and_congr_right fun _ => ⟨fun H r' h1 h2 => H r' ((hmem r').2 ⟨h1, h2⟩), fun H r' h1 => ?_⟩
        obtain ⟨a, b⟩ := (hmem r').1 h1
        exact H r' a b
      · obtain ⟨m, W, w1, w2, w3, w4⟩ := k10 r h u
        refine ⟨m, W, w1, w2, w3, fun x => ?_⟩
        dsimp only
        rw [w4 (outs x) (hL x) (hU x)]
        refine sum_congr rfl fun j hj => ?_
        have hjm : (g.parts r).getD j [] ∈ g.parts r := by
          rw [List.getD_eq_getElem _ _ (mem_range.1 hj)]; exact List.getElem_mem _
        congr 1
        refine partVal_congr (fun ht => (k7.1 ht).2 r h _ hjm) fun c hc k => ?_
        rw [hstable c (hchild r h _ hjm c hc).1 (hchild r h _ hjm c hc).2 x]
    · have : hgt r ≠ n + 1 := fun e => h ((hmem r).2 ⟨hr, e⟩)
      obtain ⟨t, h1, m, W, w1, w2, w3, w4⟩ := hI.region r hr hl (by omega) u
      refine ⟨t, h1, m, W, w1, w2, w3, fun x => ?_⟩
      dsimp only
      have w4x := w4 x
      dsimp only at w4x
      rw [hstable r hr (by omega) x, w4x]
      refine sum_congr rfl fun j hj => ?_
      have hjm : (g.parts r).getD j [] ∈ g.parts r := by
        rw [List.getD_eq_getElem _ _ (mem_range.1 hj)]; exact List.getElem_mem _
      congr 1
      refine partVal_congr (fun ht => (h1.1 ht).2 r hr rfl _ hjm) fun c hc k => ?_
      have hcc : c ∈ g.children r := List.mem_flatten.2 ⟨_, hjm, hc⟩
      have hlt := ((hh r hr).2 hl).1 c hcc
      rw [hstable c (hcl r hr c hcc) (by omega) x]
  · rw [k3, List.any_append, hI.view, k8]
    rw [← Bool.decide_or]
    refine decide_eq_decide.2 ?_
    by_cases hlt : n + 1 < hgt root
    · rw [if_pos hlt]
      constructor
      · rintro (h | h)
        · omega
        · exact absurd rfl h.2
      · rintro ⟨h, _⟩
        omega
    · rw [if_neg hlt]
      constructor
      · rintro (h | h)
        · omega
        · exact ⟨by omega, by omega, h.1, h.2⟩
      · rintro ⟨_, _, h⟩
        exact .inr h
  · intro he _
    have hone : regs = [root] := by
      have hr : root ∈ regs := (hmem root).2 ⟨hroot, he.symm⟩
      have hall : ∀ r ∈ regs, r = root := fun r h => by
        obtain ⟨a, b⟩ := (hmem r).1 h
        exact (hmax r a).2 (by omega)
      cases hreg : regs with
      | nil => exact absurd hreg hrne
      | cons a l =>
        rw [hreg] at hall hrn
        have ha := hall a (by simp)
        cases l with
        | nil => rw [ha]
        | cons b l =>
          exfalso
          have hb := hall b (by simp)
          simp [ha, hb] at hrn
    obtain ⟨fl, e, hv, h1⟩ := k6 root ((hmem root).2 ⟨hroot, he.symm⟩)
    obtain ⟨e1, e2⟩ := h1 hone
    refine ⟨by rw [e, e1], fun x => ?_⟩
    obtain ⟨_, c2, c3, c4⟩ := k9 (outs x) (hL x) (hU x)
    obtain ⟨t, ht⟩ : ∃ t, (ts (outs x)).getLast? = some t := by
      cases hg : (ts (outs x)).getLast? with
      | none => exact absurd (List.getLast?_eq_none_iff.1 hg) c3
      | some t => exact ⟨t, rfl⟩
    have hlast : (outs x ++ ts (outs x)).getLast? = some t := by
      rw [List.getLast?_append, ht]
      rfl
    refine ⟨t, hlast, ?_, ?_⟩
    · rw [c4 t (List.mem_of_getLast? ht), if_neg (by omega)]
    · have hlen := c2.1
      have := c2.2 st'.cur (by rw [hlen, k2]; omega)
      rw [e2] at this
      rw [List.getLast?_eq_getElem?, hlen, k2, Nat.add_sub_cancel] at hlast
      rw [List.getD_eq_getElem?_getD, hlast] at this
      exact this

end Verif.Qpc

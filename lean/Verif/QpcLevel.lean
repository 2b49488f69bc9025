import Verif.QpcList
/-
C82, one height of the folded circuit: what the partition layer and the mixing layer compute.
-/
namespace Verif.Qpc
open Finset Graph

/-- Specification: the value of a partition `p` at one output unit, from the values `v c k` of unit `k` of region
`c`. `t`: full tensor of weights over the units of two children; otherwise a product of weighted sums. -/
noncomputable def partVal (t : Bool) (K : ℕ) (W : ℕ → ℕ → ℝ) (p : List ℕ) (v : ℕ → ℕ → ℝ) : ℝ :=
  if t then ∑ i ∈ range K, ∑ j ∈ range K, W i j * v (p.getD 0 0) i * v (p.getD 1 0) j
  else ∏ h ∈ range p.length, ∑ k ∈ range K, W h k * v (p.getD h 0) k

theorem zipIdx_map_getD {α β : Type} {l : List α} {F : α × ℕ → β} {q : ℕ} {d : β} {a : α} (h : l[q]? = some a) :
    (l.zipIdx.map F).getD q d = F (a, q) := by
  rw [List.getD_eq_getElem?_getD, List.getElem?_map, List.getElem?_zipIdx, h]
  simp

theorem gather_ok {counts : List ℕ} {outs : List Ten} (hL : Lens counts outs) {units : ℕ} {b : Book}
    (hids : ∀ i ∈ b.ins, i < outs.length ∧ (outs.getD i ⟨0, []⟩).units = units) {α : Type} {ps : List α}
    {rowOf : α → List ℕ} (hrows : b.rows = ps.map rowOf) {xs : α → List (ℕ → ℝ)}
    (hx : ∀ a ∈ ps, (rowOf a).mapM (fun i =>
      ((b.ins.flatMap fun i => (outs.getD i ⟨0, []⟩).folds) ++ (if b.pad then [0] else [] : List (ℕ → ℝ)))[i]?) =
        some (xs a)) :
    gather outs units b = .ok (ps.map xs) := by
  unfold gather
  have h1 : b.ins.mapM (fun i => outs[i]?) = some (b.ins.map fun i => outs.getD i ⟨0, []⟩) := by
    refine mapM_some fun i hi => ?_
    have hlt := (hids i hi).1
    rw [List.getElem?_eq_getElem hlt, List.getD_eq_getElem _ _ hlt]
  rw [h1]
  dsimp only
  have h2 : ((b.ins.map fun i => outs.getD i ⟨0, []⟩).any fun t => decide (t.units ≠ units)) = false := by
    rw [List.any_eq_false]
    intro t ht
    obtain ⟨i, hi, rfl⟩ := List.mem_map.1 ht
    simp only [(hids i hi).2]
    simp
  rw [h2]
  simp only [Bool.false_eq_true, if_false, List.flatMap_map]
  unfold pickRows
  rw [hrows, List.mapM_map]
  have h3 := mapM_some (h := xs) (l := ps) hx
  simp only [Function.comp_def]
  rw [h3]

/-- A row of located children, padded. -/
theorem row_ok {counts : List ℕ} {outs : List Ten} (hL : Lens counts outs) {ids : List ℕ}
    (hids : ∀ i ∈ ids, i < outs.length) {fls : List (ℕ × ℕ)} (hfl : ∀ fl ∈ fls, fl.2 ∈ ids ∧ Valid counts fl)
    {pad : Bool} {n : ℕ} (hpad : pad = false → n = 0) :
    (fls.map (fun fl => baseOf counts ids fl.2 + fl.1) ++
        List.replicate n (ids.map fun i => counts.getD i 0).sum).mapM (fun i =>
      ((ids.flatMap fun i => (outs.getD i ⟨0, []⟩).folds) ++ (if pad then [0] else [] : List (ℕ → ℝ)))[i]?) =
      some (fls.map (at' outs) ++ List.replicate n 0) := by
  have hF : ∀ i ∈ ids, ((fun i => (outs.getD i ⟨0, []⟩).folds) i).length = counts.getD i 0 := fun i hi =>
    hL.2 i (hids i hi)
  rw [List.mapM_append, List.mapM_map]
  have h1 : fls.mapM ((fun i =>
      ((ids.flatMap fun i => (outs.getD i ⟨0, []⟩).folds) ++ (if pad then [0] else [] : List (ℕ → ℝ)))[i]?) ∘
        fun fl => baseOf counts ids fl.2 + fl.1) = some (fls.map (at' outs)) := by
    refine mapM_some fun fl h => ?_
    obtain ⟨hm, hv⟩ := hfl fl h
    obtain ⟨e, hlt⟩ := cat_get hv.2 hF hm
    show (_ ++ _)[baseOf counts ids fl.2 + fl.1]? = _
    rw [List.getElem?_append_left hlt, e]
    rfl
  have h2 : (List.replicate n (ids.map fun i => counts.getD i 0).sum).mapM (fun i =>
      ((ids.flatMap fun i => (outs.getD i ⟨0, []⟩).folds) ++ (if pad then [0] else [] : List (ℕ → ℝ)))[i]?) =
      some (List.replicate n 0) := by
    have := mapM_some (f := fun i => ((ids.flatMap fun i => (outs.getD i ⟨0, []⟩).folds) ++
      (if pad then [0] else [] : List (ℕ → ℝ)))[i]?) (h := fun _ => (0 : ℕ → ℝ))
      (l := List.replicate n (ids.map fun i => counts.getD i 0).sum) fun i hi => by
        obtain ⟨hn, rfl⟩ := List.mem_replicate.1 hi
        cases hp : pad with
        | false => exact absurd (hpad hp) hn
        | true =>
          rw [← cat_length hF, List.getElem?_append_right le_rfl]
          simp
    rw [this]
    simp
  rw [h1, h2]
  rfl

/-- Regions with exactly one partition are located in the partition layer (qpc.py:751-754). -/
def unaryKey (g : RG) (rpi : (ℕ × List ℕ) × ℕ) : Option ℕ := if (g.parts rpi.1.1).length = 1 then some rpi.1.1 else none

/-- The weights of output `o` of fold `q` of partition layer `l`. -/
noncomputable def layerW (ρ : Rule) (θ : Params) (np : ℕ) (l : PLayer) (q o : ℕ) : ℕ → ℕ → ℝ :=
  fun a b => if l.tucker then tuckerW ρ θ np l q a b o else cpW ρ θ np l q a b o

theorem useTucker_iff {cls : Cls} {arity : ℕ} {masked : Bool} :
    useTucker cls arity masked = true ↔ cls ≠ .cp ∧ arity = 2 ∧ masked = false := by
  unfold useTucker
  cases cls <;> simp

theorem partLevel_ok {g : RG} {ρ : Rule} {θ : Params} {cls : Cls} {out : ℕ} {st : St} {regs : List ℕ} (hρ : ρ.Pos)
    (hK : 0 < ρ.K) (hne : lparts g regs ≠ [])
    (hpl : ∀ r ∈ regs, ∀ p ∈ g.parts r, ∀ c ∈ p, ∃ fl, st.loc c = some fl ∧ Valid st.counts fl) :
    ∃ st' b l, partLevel g cls out regs st = .ok st' ∧ st'.steps = st.steps ++ [(b, .part st.np l)] ∧
      st'.counts = st.counts ++ [(lparts g regs).length] ∧ st'.cur = st.cur + 1 ∧ st'.np = st.np + 1 ∧ st'.nm = st.nm ∧
      st'.loc = assign (unaryKey g) (st.cur + 1) st.loc (lparts g regs).zipIdx ∧
      l.out = out ∧ (l.tucker = true ↔ cls ≠ .cp ∧ ∀ r ∈ regs, ∀ p ∈ g.parts r, p.length = 2) ∧
      ∀ outs, Lens st.counts outs → (∀ t ∈ outs, t.units = ρ.K) →
        ∃ t, step ρ θ outs b (.part st.np l) = .ok t ∧ t.units = out ∧ t.folds.length = (lparts g regs).length ∧
          ∀ q r p, (lparts g regs)[q]? = some (r, p) → ∀ o,
            Real.exp (t.folds.getD q 0 o) = partVal l.tucker ρ.K (layerW ρ θ st.np l q o) p
              fun c k => Real.exp (at' outs ((st.loc c).getD (0, 0)) k) := by
  have hpl' : ∀ rp ∈ lparts g regs, ∀ c ∈ rp.2, st.loc c = some ((st.loc c).getD (0, 0)) ∧
      Valid st.counts ((st.loc c).getD (0, 0)) := by
    rintro ⟨r, p⟩ hrp c hc
    obtain ⟨hr, hp⟩ := mem_lparts.1 hrp
    obtain ⟨fl, h1, h2⟩ := hpl r hr p hp c hc
    rw [h1]
    exact ⟨rfl, h2⟩
  obtain ⟨ls, hls⟩ : ∃ ls, ls = (lparts g regs |>.flatMap Prod.snd).map fun c => (st.loc c).getD (0, 0) := ⟨_, rfl⟩
  have h1 : ((lparts g regs).flatMap Prod.snd).mapM st.loc = some ls := by
    rw [hls]
    refine mapM_some fun c hc => ?_
    obtain ⟨rp, h, hc'⟩ := List.mem_flatMap.1 hc
    exact (hpl' rp h c hc').1
  obtain ⟨ids, hids⟩ : ∃ ids, ids = (ls.map Prod.snd).dedup.insertionSort (· ≤ ·) := ⟨_, rfl⟩
  have hmem : ∀ i, i ∈ ids ↔ ∃ rp ∈ lparts g regs, ∃ c ∈ rp.2, i = ((st.loc c).getD (0, 0)).2 := by
    intro i
    rw [hids, List.mem_insertionSort, List.mem_dedup, hls]
    simp only [List.map_map, List.mem_map, List.mem_flatMap, Function.comp]
    constructor
    · rintro ⟨c, ⟨rp, h, hc⟩, rfl⟩
      exact ⟨rp, h, c, hc, rfl⟩
    · rintro ⟨rp, h, c, hc, rfl⟩
      exact ⟨c, ⟨rp, h, hc⟩, rfl⟩
  obtain ⟨total, htot⟩ : ∃ n, n = (ids.map fun i => st.counts.getD i 0).sum := ⟨_, rfl⟩
  obtain ⟨arity, har⟩ : ∃ n, n = maxLen ((lparts g regs).map fun rp => rp.2.length) := ⟨_, rfl⟩
  obtain ⟨pad, hpad⟩ : ∃ b, b = (lparts g regs).any fun rp => decide (rp.2.length < arity) := ⟨_, rfl⟩
  have hle : ∀ rp ∈ lparts g regs, rp.2.length ≤ arity := fun rp h => by
    rw [har]; exact le_maxLen (List.mem_map.2 ⟨rp, h, rfl⟩)
  have hnp : pad = false → ∀ rp ∈ lparts g regs, rp.2.length = arity := by
    intro hp rp h
    rw [hpad, List.any_eq_false] at hp
    have := hp rp h
    simp only [decide_eq_true_eq] at this
    have := hle rp h
    omega
  obtain ⟨rowOf, hrow⟩ : ∃ f : ℕ × List ℕ → List ℕ, f = fun rp =>
      (rp.2.map fun c => (st.loc c).getD (0, 0)).map (fun fl => baseOf st.counts ids fl.2 + fl.1) ++
        List.replicate (arity - rp.2.length) total := ⟨_, rfl⟩
  have h2 : ((lparts g regs).mapM fun rp => partRow st.loc (baseOf st.counts ids) total arity rp.2) =
      .ok ((lparts g regs).map rowOf) := by
    refine mapM_ok' fun rp h => ?_
    unfold partRow
    rw [mapM_some (h := fun c => (st.loc c).getD (0, 0)) fun c hc => (hpl' rp h c hc).1, hrow]
    simp
  have htk : useTucker cls arity pad = true ↔ cls ≠ .cp ∧ ∀ r ∈ regs, ∀ p ∈ g.parts r, p.length = 2 := by
    rw [useTucker_iff]
    constructor
    · rintro ⟨a, b, c⟩
      exact ⟨a, fun r hr p hp => (hnp c (r, p) (mem_lparts.2 ⟨hr, hp⟩)).trans b⟩
    · rintro ⟨a, b⟩
      have hall : ∀ rp ∈ lparts g regs, rp.2.length = 2 := fun rp h => b rp.1 (mem_lparts.1 h).1 rp.2 (mem_lparts.1 h).2
      have h2 : arity = 2 := by
        obtain ⟨rp, h⟩ := List.exists_mem_of_ne_nil _ hne
        rcases foldl_max_mem (l := (lparts g regs).map fun rp => rp.2.length) (b := 0) with e | e
        · have := hle rp h
          have := hall rp h
          rw [har] at *
          unfold maxLen at *
          omega
        · obtain ⟨rp', h', e'⟩ := List.mem_map.1 e
          rw [har]
          unfold maxLen
          rw [← e']
          exact hall rp' h'
      refine ⟨a, h2, ?_⟩
      rw [hpad, List.any_eq_false]
      intro rp h
      rw [hall rp h, h2]
      decide
  obtain ⟨mask, hmask⟩ : ∃ m, m = if pad then some (((lparts g regs).map rowOf).map fun row => row.map fun i => decide (i < total)) else none := ⟨_, rfl⟩
  obtain ⟨l, hl⟩ : ∃ l : PLayer, l = ⟨useTucker cls arity pad, (lparts g regs).length, arity, out, mask⟩ := ⟨_, rfl⟩
  refine ⟨⟨assign (unaryKey g) (st.cur + 1) st.loc (lparts g regs).zipIdx, st.counts ++ [(lparts g regs).length],
    st.cur + 1, st.np + 1, st.nm, st.steps ++ [(⟨pad, ids, (lparts g regs).map rowOf⟩, .part st.np l)]⟩,
    ⟨pad, ids, (lparts g regs).map rowOf⟩, l, ?_, rfl, rfl, rfl, rfl, rfl, rfl, by rw [hl], by rw [hl]; exact htk, ?_⟩
  · unfold partLevel
    simp only [h1, ← hids, ← htot, ← har, ← hpad, h2, ← hmask]
    rw [← hl]
    congr 2
    unfold assign unaryKey
    congr 1
    funext loc rpi
    by_cases e : (g.parts rpi.1.1).length = 1 <;> simp [e]
  · intro outs hL hU
    have hil : ∀ i ∈ ids, i < outs.length := by
      intro i hi
      obtain ⟨rp, h, c, hc, rfl⟩ := (hmem i).1 hi
      rw [hL.1]
      exact (hpl' rp h c hc).2.1
    obtain ⟨xs, hxs⟩ : ∃ xs : ℕ × List ℕ → List (ℕ → ℝ), xs = fun rp =>
        (rp.2.map fun c => (st.loc c).getD (0, 0)).map (at' outs) ++ List.replicate (arity - rp.2.length) 0 := ⟨_, rfl⟩
    have hg : gather outs ρ.K ⟨pad, ids, (lparts g regs).map rowOf⟩ = .ok ((lparts g regs).map xs) := by
      refine gather_ok hL (fun i hi => ⟨hil i hi, ?_⟩) rfl fun rp h => ?_
      · rw [List.getD_eq_getElem _ _ (hil i hi)]
        exact hU _ (List.getElem_mem _)
      · rw [hrow, hxs]
        dsimp only
        rw [htot]
        refine row_ok hL hil (fun fl hfl => ?_) fun hp => ?_
        · obtain ⟨c, hc, rfl⟩ := List.mem_map.1 hfl
          exact ⟨(hmem _).2 ⟨rp, h, c, hc, rfl⟩, (hpl' rp h c hc).2⟩
        · have := hnp hp rp h
          omega
    have hxl : ∀ rp ∈ lparts g regs, (xs rp).length = arity := by
      intro rp h
      have := hle rp h
      rw [hxs]
      simp
      omega
    have hxg : ∀ rp ∈ lparts g regs, ∀ h < rp.2.length,
        (xs rp).getD h 0 = at' outs ((st.loc (rp.2.getD h 0)).getD (0, 0)) := by
      intro rp _ h hh
      rw [hxs]
      dsimp only
      rw [List.getD_append _ _ _ _ (by simpa using hh), List.getD_eq_getElem _ _ (by simpa using hh)]
      simp [List.getElem?_eq_getElem hh]
    unfold step
    rw [hg]
    dsimp only
    by_cases ht : l.tucker = true
    · have h3 := (useTucker_iff (cls := cls) (arity := arity) (masked := pad)).1 (by rw [hl] at ht; exact ht)
      rw [if_pos ht, if_neg (by rw [hl]; simp [h3.2.1])]
      refine ⟨_, rfl, by rw [hl], by simp, fun q r p hq o => ?_⟩
      have hrp : (r, p) ∈ lparts g regs := List.mem_of_getElem? hq
      have hlen : p.length = 2 := (hnp h3.2.2 (r, p) hrp).trans h3.2.1
      have hq' : ((lparts g regs).map xs)[q]? = some (xs (r, p)) := by rw [List.getElem?_map, hq]; rfl
      dsimp only
      rw [zipIdx_map_getD hq', exp_evalTucker hK _ _ _ _ fun i hi j hj => (tuckerW_ok hρ hK θ st.np l ht q o).1 i hi j hj]
      unfold partVal layerW
      rw [if_pos ht, hxg (r, p) hrp 0 (by simp [hlen]), hxg (r, p) hrp 1 (by simp [hlen])]
      simp only [ht, if_true]
    · have ht' : l.tucker = false := by simpa using ht
      rw [if_neg ht]
      refine ⟨_, rfl, by rw [hl], by simp, fun q r p hq o => ?_⟩
      have hrp : (r, p) ∈ lparts g regs := List.mem_of_getElem? hq
      have hq' : ((lparts g regs).map xs)[q]? = some (xs (r, p)) := by rw [List.getElem?_map, hq]; rfl
      dsimp only
      rw [zipIdx_map_getD hq', exp_evalCp hK _ _ _ _ fun h _ k hk => (cpW_ok hρ hK θ st.np l ht' q h o).1 k hk]
      unfold partVal layerW
      rw [if_neg ht]
      simp only [ht', Bool.false_eq_true, if_false]
      rw [hxl _ hrp]
      have hkeep : ∀ h < arity, keep (maskRow l.mask q) h = decide (h < p.length) := by
        intro h hh
        rw [hl]
        dsimp only
        rw [hmask]
        cases hp : pad with
        | false =>
          have := hnp hp (r, p) hrp
          simp only [Bool.false_eq_true, if_false, maskRow, Option.map_none, keep]
          have : h < p.length := by simpa [this] using hh
          simp [this]
        | true =>
          simp only [if_true, maskRow, Option.map_some]
          have e : (((lparts g regs).map rowOf).map fun row => row.map fun i => decide (i < total)).getD q [] =
              (rowOf (r, p)).map fun i => decide (i < total) := by
            rw [List.getD_eq_getElem?_getD, List.getElem?_map, List.getElem?_map, hq]
            rfl
          rw [e, hrow]
          dsimp only
          have := keep_row (is := (p.map fun c => (st.loc c).getD (0, 0)).map fun fl => baseOf st.counts ids fl.2 + fl.1)
            (total := total) (n := arity) (fun i hi => by
              simp only [List.map_map, List.mem_map, Function.comp] at hi
              obtain ⟨c, hc, rfl⟩ := hi
              have hv := (hpl' (r, p) hrp c hc).2
              have := (cat_get (F := fun i => (outs.getD i ⟨0, []⟩).folds) hv.2 (fun i hi => hL.2 i (hil i hi))
                ((hmem _).2 ⟨(r, p), hrp, c, hc, rfl⟩)).2
              rw [cat_length (F := fun i => (outs.getD i ⟨0, []⟩).folds) fun i hi => hL.2 i (hil i hi)] at this
              rw [htot]
              exact this) (by simpa using hle (r, p) hrp) hh
          simp only [List.length_map] at this
          exact this
      rw [← prod_pad (hle (r, p) hrp) fun h => ∑ k ∈ range ρ.K, cpW ρ θ st.np l q h k o *
        Real.exp (at' outs ((st.loc (p.getD h 0)).getD (0, 0)) k)]
      refine prod_congr rfl fun h hh => ?_
      rw [hkeep h (mem_range.1 hh)]
      by_cases hlt : h < p.length
      · simp only [hlt, decide_true, if_true]
        rw [hxg (r, p) hrp h hlt]
      · simp [hlt]

end Verif.Qpc

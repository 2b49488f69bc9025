import Verif.SosTree

/-!
# Circuits of `SOSModel` / `ExpSOSModel`: what `_build_component` returns
-/

open Verif.Inner

namespace Verif
namespace Sos

open Tree

/-- The variables of a tree node, as variables of a module. -/
def Tree.vars (t : Tree) : Finset Var := (t.scope.map fun v : ℕ => (v : ℤ)).toFinset

theorem mem_vars {t : Tree} {z : ℤ} : z ∈ t.vars ↔ ∃ v ∈ t.scope, (v : ℤ) = z := by
  simp [Tree.vars]

/-- The leaf constructor does not fail: a number of states is known for the discrete input layers, and it is not zero for
signed leaves. -/
def Cfg.LeafOk (cfg : Cfg) : Prop :=
  cfg.layer = "gaussian" ∨ ∃ K, cfg.states = some K ∧ (cfg.nonMono = true → cfg.nonMonoInputs = true → K ≠ 0)

/-- The parameters that `_make_leaf` puts into the cell of variable `v` and channel `ch`. -/
noncomputable def cell (cfg : Cfg) (d : Draws) (v ch : ℕ) : LeafPar :=
  if cfg.layer = "gaussian" then .normal (d.loc v ch) (d.scale v ch)
  else if cfg.nonMono = true ∧ cfg.nonMonoInputs = true then
    .scat (cfg.states.getD 0) fun k => signedInit cfg.n (d.table v ch k)
  else .cat (cfg.states.getD 0) (d.probs v ch)

/-- The leaf module over `scope`. -/
noncomputable def leafOf (cfg : Cfg) (d : Draws) (scope : List ℕ) : IC :=
  .leaf (scope.map fun v : ℕ => (v : ℤ)) cfg.inputUnits 1 fun f ch _ => cell cfg d (scope.getD f 0) ch

theorem makeLeaf_ok {cfg : Cfg} (h : cfg.LeafOk) (d : Draws) (scope : List ℕ) :
    makeLeaf cfg d scope = .ok (leafOf cfg d scope) := by
  unfold makeLeaf leafOf cell
  dsimp only
  by_cases hg : cfg.layer = "gaussian"
  · simp only [hg, if_true]
  · simp only [hg, if_false]
    obtain h | ⟨K, hK, h0⟩ := h
    · exact absurd h hg
    · simp only [hK, Option.getD_some]
      by_cases hs : cfg.nonMono = true ∧ cfg.nonMonoInputs = true
      · rw [if_pos hs, if_neg (h0 hs.1 hs.2)]
        simp only [hs, and_self, if_true]
      · rw [if_neg hs]
        simp only [hs, if_false]

theorem makeLeaf_fails {cfg : Cfg} (hl : cfg.layer ≠ "gaussian") {K : ℕ} (hK : cfg.states = some K)
    (h : ¬ cfg.LeafOk) (d : Draws) (scope : List ℕ) : makeLeaf cfg d scope = .error .valueError := by
  simp only [Cfg.LeafOk, hK, Option.some.injEq, exists_eq_left', not_or, hl, not_false_eq_true, true_and,
    Classical.not_imp, not_not] at h
  obtain ⟨h1, h2, rfl⟩ := h
  simp only [makeLeaf, hl, if_false, hK, h1, h2, and_self, if_true]

/-- Some entry fails and all failures are the same: the whole list fails that way. -/
theorem seqFin_error {α : Type} {e : Exc} : ∀ {n : ℕ} {g : Fin n → Except Exc α}, (∀ i, g i = .error e ∨ ∃ z, g i = .ok z) →
    (∃ i, g i = .error e) → seqFin g = .error e
  | 0, _, _, ⟨i, _⟩ => i.elim0
  | n + 1, g, h, ⟨i, hi⟩ => by
    unfold seqFin
    rcases h 0 with h0 | ⟨z, h0⟩
    · rw [h0]
    · have hne : i ≠ 0 := fun e' => by rw [e', h0] at hi; cases hi
      have := seqFin_error (g := fun j : Fin n => g j.succ) (fun j => h j.succ) ⟨i.pred hne, by simpa using hi⟩
      rw [h0]
      simp only [this]

/-! ## Inversion -/

theorem productOf_ok {n : ℕ} {ks : Fin n → IC} {p : IC} (hn : 2 ≤ n) (h : productOf ks = .ok p) :
    p = .prod (.cat1 n ks) ∧ (∀ i j, (ks i).C = (ks j).C) ∧ ∀ i j, i ≠ j → Disjoint (ks i).vars (ks j).vars := by
  unfold productOf at h
  rw [dif_neg (by omega)] at h
  split_ifs at h with h1 h2
  cases h
  push Not at h1 h2
  exact ⟨rfl, h1, h2⟩

theorem productOf_of {n : ℕ} {ks : Fin n → IC} (hn : 2 ≤ n) (h1 : ∀ i j, (ks i).C = (ks j).C)
    (h2 : ∀ i j, i ≠ j → Disjoint (ks i).vars (ks j).vars) : productOf ks = .ok (.prod (.cat1 n ks)) := by
  unfold productOf
  rw [dif_neg (by omega), if_neg (by push Not; exact h1), if_neg (by push Not; exact h2)]

theorem inst_node {cfg : Cfg} {d : Draws} {s : List ℕ} {n : ℕ} {cs : Fin n → Tree} {c : IC} (hn : 2 ≤ n)
    (h : inst cfg d (.node s n cs) = .ok c) :
    ∃ ks : Fin n → IC, (∀ i, inst cfg d (cs i) = .ok (ks i)) ∧ c = sumOver cfg d s (.prod (.cat1 n ks)) ∧
      (∀ i j, (ks i).C = (ks j).C) ∧ ∀ i j, i ≠ j → Disjoint (ks i).vars (ks j).vars := by
  simp only [inst] at h
  rw [if_neg (by omega)] at h
  cases hk : seqFin fun i : Fin n => inst cfg d (cs i) with
  | error e => rw [hk] at h; cases h
  | ok ks =>
    rw [hk] at h
    cases hp : productOf ks with
    | error e => simp only [hp] at h; cases h
    | ok p =>
      simp only [hp] at h
      cases h
      obtain ⟨rfl, h1, h2⟩ := productOf_ok hn hp
      exact ⟨ks, seqFin_ok hk, rfl, h1, h2⟩

/-! ## Shape of the instantiated tree -/

/-- What is known about the circuit of a tree. -/
structure Built (cfg : Cfg) (t : Tree) (c : IC) : Prop where
  wf : Wf c
  vars : c.vars = t.vars
  reps : c.R = 1
  leafC : t.isLeaf → c.C = cfg.inputUnits
  nodeC : ¬ t.isLeaf → c.C = cfg.sumUnits
  leafF : t.isLeaf → c.F = t.scope.length
  nodeF : ¬ t.isLeaf → c.F = 1

theorem built {cfg : Cfg} {d : Draws} (hl : cfg.LeafOk) : ∀ {t : Tree} {c : IC}, t.Ok → inst cfg d t = .ok c → Built cfg t c := by
  intro t
  induction t with
  | leaf s =>
    intro c ht h
    simp only [inst, makeLeaf_ok hl] at h
    cases h
    refine ⟨?_, rfl, rfl, fun _ => rfl, fun h => absurd trivial h, fun _ => ?_, fun h => absurd trivial h⟩
    · exact (List.nodup_map_iff Nat.cast_injective).2 ht.2
    · simp [leafOf, IC.F, Tree.scope]
  | node s n cs ih =>
    intro c ht h
    obtain ⟨hn, hs, hok, hd, hu⟩ := ht
    obtain ⟨ks, hks, rfl, hC, hD⟩ := inst_node hn h
    have hb := fun i => ih i (hok i) (hks i)
    refine ⟨⟨⟨by omega, fun i => (hb i).wf, hC, fun i j => by rw [(hb i).reps, (hb j).reps], hD⟩, rfl⟩, ?_, ?_,
      fun h => absurd h (by simp [Tree.isLeaf]), fun _ => rfl, fun h => absurd h (by simp [Tree.isLeaf]), fun _ => rfl⟩
    · ext z
      simp only [sumOver, IC.vars, Finset.mem_biUnion, Finset.mem_univ, true_and]
      rw [mem_vars]
      constructor
      · rintro ⟨i, hi⟩
        rw [(hb i).vars, mem_vars] at hi
        obtain ⟨v, hv, e⟩ := hi
        exact ⟨v, (hu v).2 ⟨i, hv⟩, e⟩
      · rintro ⟨v, hv, e⟩
        obtain ⟨i, hi⟩ := (hu v).1 hv
        exact ⟨i, by rw [(hb i).vars, mem_vars]; exact ⟨v, hi, e⟩⟩
    · simp only [sumOver, IC.R, dif_pos (show 0 < n by omega)]
      exact (hb _).reps

/-- The trees for which the circuit can be built: no node mixes leaves and inner nodes, or all layers have the same
number of units. -/
def Fits (cfg : Cfg) (t : Tree) : Prop := cfg.inputUnits = cfg.sumUnits ∨ ¬ t.Mixed

theorem inst_total {cfg : Cfg} (d : Draws) (hl : cfg.LeafOk) : ∀ {t : Tree}, t.Ok →
    (Fits cfg t → ∃ c, inst cfg d t = .ok c) ∧ (¬ Fits cfg t → inst cfg d t = .error .valueError) := by
  intro t
  induction t with
  | leaf s =>
    intro _
    exact ⟨fun _ => ⟨_, makeLeaf_ok hl d s⟩, fun h => absurd (Or.inr fun h => h) h⟩
  | node s n cs ih =>
    intro ht
    obtain ⟨hn, hs, hok, hd, hu⟩ := ht
    have hchild : ∀ i, inst cfg d (cs i) = .error .valueError ∨ ∃ z, inst cfg d (cs i) = .ok z := fun i => by
      by_cases hf : Fits cfg (cs i)
      · exact Or.inr ((ih i (hok i)).1 hf)
      · exact Or.inl ((ih i (hok i)).2 hf)
    have e0 : inst cfg d (.node s n cs) =
        match seqFin fun i : Fin n => inst cfg d (cs i) with
        | .error e => .error e
        | .ok ks =>
          match productOf ks with
          | .error e => .error e
          | .ok p => .ok (sumOver cfg d s p) := by
      simp only [inst]
      rw [if_neg (by omega)]
      cases (seqFin fun i : Fin n => inst cfg d (cs i)) with
      | error e => rfl
      | ok ks => cases productOf ks <;> rfl
    constructor
    · intro hf
      have hfi : ∀ i, Fits cfg (cs i) := fun i => by
        rcases hf with hf | hf
        · exact Or.inl hf
        · exact Or.inr fun h => hf (Or.inr ⟨i, h⟩)
      have hex := fun i => (ih i (hok i)).1 (hfi i)
      choose ks hks using hex
      have hb := fun i => built hl (hok i) (hks i)
      have hp : productOf ks = .ok (.prod (.cat1 n ks)) := by
        refine productOf_of hn ?_ ?_
        · intro i j
          by_cases li : (cs i).isLeaf <;> by_cases lj : (cs j).isLeaf
          · rw [(hb i).leafC li, (hb j).leafC lj]
          · rw [(hb i).leafC li, (hb j).nodeC lj]
            exact hf.resolve_right fun hm => hm (Or.inl ⟨i, j, li, lj⟩)
          · rw [(hb i).nodeC li, (hb j).leafC lj]
            exact (hf.resolve_right fun hm => hm (Or.inl ⟨j, i, lj, li⟩)).symm
          · rw [(hb i).nodeC li, (hb j).nodeC lj]
        · intro i j hij
          rw [(hb i).vars, (hb j).vars, Finset.disjoint_left]
          intro z hz hz'
          obtain ⟨v, hv, rfl⟩ := mem_vars.1 hz
          obtain ⟨v', hv', e⟩ := mem_vars.1 hz'
          cases Nat.cast_injective e
          exact hd i j hij _ hv hv'
      refine ⟨sumOver cfg d s (.prod (.cat1 n ks)), ?_⟩
      rw [e0, seqFin_of hks]
      simp only [hp]
    · intro hf
      have hne : cfg.inputUnits ≠ cfg.sumUnits := fun e => hf (Or.inl e)
      have hm : (Tree.node s n cs).Mixed := by
        by_contra hm
        exact hf (Or.inr hm)
      by_cases hc : ∃ i, ¬ Fits cfg (cs i)
      · obtain ⟨i, hi⟩ := hc
        rw [e0, seqFin_error hchild ⟨i, (ih i (hok i)).2 hi⟩]
      · push Not at hc
        have hex := fun i => (ih i (hok i)).1 (hc i)
        choose ks hks using hex
        have hb := fun i => built hl (hok i) (hks i)
        rw [e0, seqFin_of hks]
        have : productOf ks = .error .valueError := by
          unfold productOf
          rw [dif_neg (by omega), if_pos]
          rcases hm with ⟨i, j, li, lj⟩ | ⟨i, hi⟩
          · exact ⟨i, j, by rw [(hb i).leafC li, (hb j).nodeC lj]; exact hne⟩
          · exact absurd hi ((hc i).resolve_left hne)
        simp only [this]

/-! ## Leaves, monotonicity -/

theorem inst_sorted {cfg : Cfg} {d : Draws} (hl : cfg.LeafOk) : ∀ {t : Tree} {c : IC}, t.Ok →
    t.Leaves (fun s => s.Pairwise (· < ·)) → inst cfg d t = .ok c → Sorted c := by
  intro t
  induction t with
  | leaf s =>
    intro c _ hs h
    simp only [inst, makeLeaf_ok hl] at h
    cases h
    exact List.pairwise_map.2 (List.Pairwise.imp (fun h => by exact_mod_cast h) hs)
  | node s n cs ih =>
    intro c ht hs h
    obtain ⟨ks, hks, rfl, -, -⟩ := inst_node ht.1 h
    exact fun i => ih i (ht.2.2.1 i) (hs i) (hks i)

theorem inst_leaves {cfg : Cfg} {d : Draws} (hl : cfg.LeafOk) {P : Var → LeafPar → Prop}
    (hP : ∀ v ch : ℕ, ch < cfg.inputUnits → P (v : ℤ) (cell cfg d v ch)) : ∀ {t : Tree} {c : IC}, t.Ok →
    inst cfg d t = .ok c → Inner.Leaves P c := by
  intro t
  induction t with
  | leaf s =>
    intro c _ h
    simp only [inst, makeLeaf_ok hl] at h
    cases h
    intro f hf ch hch r hr
    have hf' : f < s.length := by simpa using hf
    have : ((s.map fun v : ℕ => (v : ℤ)).getD f 0) = ((s.getD f 0 : ℕ) : ℤ) := by
      rw [List.getD_eq_getElem _ _ hf, List.getD_eq_getElem _ _ hf', List.getElem_map]
    rw [this]
    exact hP _ _ hch
  | node s n cs ih =>
    intro c ht h
    obtain ⟨ks, hks, rfl, -, -⟩ := inst_node ht.1 h
    exact fun i => ih i (ht.2.2.1 i) (hks i)

theorem inst_monotone {cfg : Cfg} {d : Draws} (hl : cfg.LeafOk)
    (hP : ∀ v ch : ℕ, ch < cfg.inputUnits → ∀ t, 0 ≤ dens (cell cfg d v ch) t)
    (hw : ∀ s i o, 0 ≤ if cfg.nonMono = true then signedInit cfg.n (d.signed s i o) else d.weight s i o) :
    ∀ {t : Tree} {c : IC}, t.Ok → inst cfg d t = .ok c → Monotone c := by
  intro t
  induction t with
  | leaf s =>
    intro c _ h
    simp only [inst, makeLeaf_ok hl] at h
    cases h
    exact fun f _ ch hch r _ t => hP _ _ hch t
  | node s n cs ih =>
    intro c ht h
    obtain ⟨ks, hks, rfl, -, -⟩ := inst_node ht.1 h
    exact ⟨fun i => ih i (ht.2.2.1 i) (hks i), fun _ _ i _ o _ _ _ => hw s i o⟩

theorem inst_alike {cfg1 cfg2 cfg3 : Cfg} {d1 d2 d3 : Draws} (h1 : cfg1.LeafOk) (h2 : cfg2.LeafOk) (h3 : cfg3.LeafOk)
    (hk : ∀ v i j l, kind (cell cfg1 d1 v i) ≠ none ∧ kind (cell cfg1 d1 v i) = kind (cell cfg2 d2 v j) ∧
      kind (cell cfg1 d1 v i) = kind (cell cfg3 d3 v l)) :
    ∀ {t : Tree} {c1 c2 c3 : IC}, t.Ok → inst cfg1 d1 t = .ok c1 → inst cfg2 d2 t = .ok c2 → inst cfg3 d3 t = .ok c3 →
    Alike c1 c2 c3 := by
  intro t
  induction t with
  | leaf s =>
    intro c1 c2 c3 _ e1 e2 e3
    simp only [inst, makeLeaf_ok h1, makeLeaf_ok h2, makeLeaf_ok h3] at e1 e2 e3
    cases e1
    cases e2
    cases e3
    exact ⟨⟨rfl, rfl⟩, ⟨rfl, rfl⟩, fun f _ i _ j _ l _ r _ => hk _ i j l⟩
  | node s n cs ih =>
    intro c1 c2 c3 ht e1 e2 e3
    have b1 := built h1 ht e1
    obtain ⟨k1, hk1, rfl, -, -⟩ := inst_node ht.1 e1
    obtain ⟨k2, hk2, rfl, -, -⟩ := inst_node ht.1 e2
    obtain ⟨k3, hk3, rfl, -, -⟩ := inst_node ht.1 e3
    have r1 := fun i => (built h1 (ht.2.2.1 i) (hk1 i)).reps
    have r2 := fun i => (built h2 (ht.2.2.1 i) (hk2 i)).reps
    have r3 := fun i => (built h3 (ht.2.2.1 i) (hk3 i)).reps
    have hn : 0 < n := by have := ht.1; omega
    refine ⟨?_, ?_, rfl, rfl, fun i => ih i (ht.2.2.1 i) (hk1 i) (hk2 i) (hk3 i)⟩
    · simp only [IC.R, dif_pos hn, r1, r2]
    · simp only [IC.R, dif_pos hn, r1, r3]

/-! ## `_finalize_scalar` -/

/-- The circuit before the final shape check. -/
noncomputable def scalar (cfg : Cfg) (d : Draws) (force : Bool) (root : IC) : IC :=
  let out := if root.F ≠ 1 then .prod root else root
  if out.C ≠ 1 ∨ force = true then rootSum cfg d out else out

theorem scalar_cases (cfg : Cfg) (d : Draws) (force : Bool) (root : IC) :
    ∃ out, (out = root ∧ root.F = 1 ∨ out = .prod root) ∧ (scalar cfg d force root = out ∧ out.C = 1 ∧ force = false ∨
      scalar cfg d force root = rootSum cfg d out) := by
  unfold scalar
  refine ⟨if root.F ≠ 1 then .prod root else root, ?_, ?_⟩
  · split_ifs with h
    · exact Or.inr rfl
    · exact Or.inl ⟨rfl, not_not.1 h⟩
  · dsimp only
    generalize (if root.F ≠ 1 then IC.prod root else root) = out
    by_cases h : out.C ≠ 1 ∨ force = true
    · rw [if_pos h]; exact Or.inr rfl
    · rw [if_neg h]
      simp only [not_or, not_not, Bool.not_eq_true] at h
      exact Or.inl ⟨rfl, h⟩

theorem scalar_shape {cfg : Cfg} {d : Draws} {force : Bool} {root : IC} (hr : root.R = 1) :
    ((scalar cfg d force root).F, (scalar cfg d force root).C, (scalar cfg d force root).R) = (1, 1, 1) := by
  obtain ⟨out, h1, h2⟩ := scalar_cases cfg d force root
  have hF : out.F = 1 := by rcases h1 with ⟨rfl, h⟩ | rfl; exacts [h, rfl]
  have hR : out.R = 1 := by rcases h1 with ⟨rfl, h⟩ | rfl <;> exact hr
  rcases h2 with ⟨h, hC, -⟩ | h
  · rw [h, hF, hC, hR]
  · rw [h]
    simp only [rootSum, IC.F, IC.C, IC.R, hF, hR]

theorem component_eq {cfg : Cfg} {d : Draws} {force : Bool} {t : Tree} (hl : cfg.LeafOk) (ht : t.Ok) :
    component cfg d force t = (inst cfg d t).map (scalar cfg d force) := by
  unfold component
  cases h : inst cfg d t with
  | error e => rfl
  | ok root =>
    have hs := scalar_shape (cfg := cfg) (d := d) (force := force) (built hl ht h).reps
    simp only [finalize]
    rw [if_neg]
    · rfl
    · rw [not_not]; exact hs

/-- **C78 (component).** Building the circuit of a region tree succeeds exactly if no tree node mixes leaves and inner
nodes, or input and sum layers have the same number of units; otherwise it raises `ValueError`.  The result is a
well-formed circuit with one output over exactly the variables of the tree. -/
theorem C78_component {cfg : Cfg} {t : Tree} (d : Draws) (force : Bool) (hl : cfg.LeafOk) (ht : t.Ok) :
    ((∃ c, component cfg d force t = .ok c) ↔ cfg.inputUnits = cfg.sumUnits ∨ ¬ t.Mixed) ∧
    (∀ e, component cfg d force t = .error e → e = .valueError) ∧
    ∀ c, component cfg d force t = .ok c → Wf c ∧ c.vars = t.vars ∧ (c.F, c.C, c.R) = (1, 1, 1) := by
  rw [component_eq hl ht]
  obtain ⟨h1, h2⟩ := inst_total d hl ht
  refine ⟨⟨?_, ?_⟩, ?_, ?_⟩
  · rintro ⟨c, hc⟩
    by_contra hf
    rw [h2 hf] at hc
    cases hc
  · intro hf
    obtain ⟨c, hc⟩ := h1 hf
    exact ⟨_, by rw [hc]; rfl⟩
  · intro e he
    by_cases hf : Fits cfg t
    · obtain ⟨c, hc⟩ := h1 hf
      rw [hc] at he
      cases he
    · rw [h2 hf] at he
      cases he
      rfl
  · intro c hc
    cases hi : inst cfg d t with
    | error e => rw [hi] at hc; cases hc
    | ok root =>
      rw [hi] at hc
      cases hc
      have hb := built hl ht hi
      refine ⟨?_, ?_, scalar_shape hb.reps⟩
      · obtain ⟨out, h1, h2⟩ := scalar_cases cfg d force root
        have : Wf out := by rcases h1 with ⟨rfl, h⟩ | rfl <;> exact hb.wf
        rcases h2 with ⟨h, -⟩ | h
        · rw [h]; exact this
        · rw [h]; exact ⟨this, rfl⟩
      · obtain ⟨out, h1, h2⟩ := scalar_cases cfg d force root
        have : out.vars = t.vars := by rcases h1 with ⟨rfl, h⟩ | rfl <;> exact hb.vars
        rcases h2 with ⟨h, -⟩ | h
        · rw [h]; exact this
        · rw [h]; exact this

theorem component_inst {cfg : Cfg} {d : Draws} {force : Bool} {t : Tree} {c : IC} (hl : cfg.LeafOk) (ht : t.Ok)
    (h : component cfg d force t = .ok c) : ∃ root, inst cfg d t = .ok root ∧ c = scalar cfg d force root := by
  rw [component_eq hl ht] at h
  cases hi : inst cfg d t with
  | error e => rw [hi] at h; cases h
  | ok root => rw [hi] at h; cases h; exact ⟨root, rfl, rfl⟩

theorem scalar_leaves {P : Var → LeafPar → Prop} {cfg : Cfg} {d : Draws} {force : Bool} {root : IC}
    (h : Inner.Leaves P root) : Inner.Leaves P (scalar cfg d force root) := by
  obtain ⟨out, h1, h2⟩ := scalar_cases cfg d force root
  have : Inner.Leaves P out := by rcases h1 with ⟨rfl, _⟩ | rfl <;> exact h
  rcases h2 with ⟨h, -⟩ | h <;> rw [h] <;> exact this

theorem scalar_sorted {cfg : Cfg} {d : Draws} {force : Bool} {root : IC}
    (h : Sorted root) : Sorted (scalar cfg d force root) := by
  obtain ⟨out, h1, h2⟩ := scalar_cases cfg d force root
  have : Sorted out := by rcases h1 with ⟨rfl, _⟩ | rfl <;> exact h
  rcases h2 with ⟨h, -⟩ | h <;> rw [h] <;> exact this

theorem scalar_monotone {cfg : Cfg} {d : Draws} {force : Bool} {root : IC} (h : Monotone root)
    (hw : ∀ i, 0 ≤ if cfg.nonMono = true then signedInit cfg.n (d.rootSigned i) else d.rootWeight i) :
    Monotone (scalar cfg d force root) := by
  obtain ⟨out, h1, h2⟩ := scalar_cases cfg d force root
  have : Monotone out := by rcases h1 with ⟨rfl, _⟩ | rfl <;> exact h
  rcases h2 with ⟨h, -⟩ | h
  · rw [h]; exact this
  · rw [h]; exact ⟨this, fun _ _ i _ _ _ _ _ => hw i⟩

theorem scalar_alike {cfg1 cfg2 cfg3 : Cfg} {d1 d2 d3 : Draws} {a b c : IC} (h : Alike a b c)
    (hF : a.F = b.F ∧ a.F = c.F) (hR : a.R = 1 ∧ b.R = 1 ∧ c.R = 1) :
    Alike (scalar cfg1 d1 true a) (scalar cfg2 d2 true b) (scalar cfg3 d3 true c) := by
  unfold scalar
  simp only [or_true, if_true, ← hF.1, ← hF.2]
  by_cases hf : a.F ≠ 1
  · simp only [if_pos hf]
    exact ⟨by simp only [IC.R, hR], by simp only [IC.R, hR], h⟩
  · simp only [if_neg hf]
    exact ⟨by rw [hR.1, hR.2.1], by rw [hR.1, hR.2.2], h⟩

end Sos
end Verif

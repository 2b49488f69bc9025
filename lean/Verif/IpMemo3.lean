import Verif.IpMemoProps
import Verif.TripleMain

/-!
# The memo of exact triple products: `triple_product_tensor(a, b, c, cache=...)` and `triple_product_scalar`
(spflow/utils/inner_product.py:71-103, spflow/utils/inner_product_core.py:611-1093), and the log-partition of ExpSOCS with
a cache (spflow/modules/sos/exp_socs.py:70-87)

The public functions keep these tensors in the same dictionary as those of `inner_product_matrix`, under triples of
identities instead of pairs; no key of one kind equals a key of the other, so the triples are modelled as a memo of their
own.
-/

namespace Verif
namespace IpMemo

open Inner

/-- The entries with three identities, inner_product_core.py:611-616. -/
abbrev Memo3 := ℕ → ℕ → ℕ → Option Mat3

/-- The memo of a new cache. -/
def Memo3.empty : Memo3 := fun _ _ _ => none

/-- `memo[(i, j, l)] = k`. -/
def Memo3.set (m : Memo3) (i j l : ℕ) (k : Mat3) : Memo3 :=
  fun i' j' l' => if i' = i ∧ j' = j ∧ l' = l then some k else m i' j' l'

/-- `rearrange(swapped, "f ci co cj r -> f co ci cj r")`. -/
def swap3 (k : Mat3) : Mat3 := fun f i j l r => k f j i l r

/-- inner_product_core.py:628-638 and the stores after each computation. -/
def cached3 (i j l : ℕ) (body : M Memo3 Mat3) : M Memo3 Mat3 := fun m =>
  match m i j l with
  | some k => (.ok k, m)
  | none =>
    match m j i l with
    | some k => (.ok (swap3 k), m.set i j l (swap3 k))
    | none =>
      match body m with
      | (.ok k, m') => (.ok k, m'.set i j l k)
      | (.error e, m') => (.error e, m')

/-- The checks, inner_product_core.py:640-650. -/
def guard3 (a b c : IC) (body : M Memo3 Mat3) : M Memo3 Mat3 :=
  match tpChecks a b c with
  | .error e => fail e
  | .ok _ => body

open T in
/-- `triple_product_tensor(a, b, c, cache=cache)`, inner_product_core.py:619-1078; same branches as `Inner.tp`.  The
leaf branch has no nested call. -/
noncomputable def tpM : T → T → T → M Memo3 Mat3
  | leaf ia q C R par, b, c =>
    cached3 ia b.id c.id <| guard3 (T.leaf ia q C R par).ic b.ic c.ic fun m => (tp (T.leaf ia q C R par).ic b.ic c.ic, m)
  | cat1 ia n cs, b, c =>
    cached3 ia b.id c.id <| guard3 (T.cat1 ia n cs).ic b.ic c.ic <|
      match b, c with
      | cat1 _ m ds, cat1 _ m' es =>
        if h : n = m ∧ n = m' then
          mapM' (seqM fun i : Fin n => tpM (cs i) (ds (i.cast h.1)) (es (i.cast h.2))) fun k f i j l r =>
            pick3 k (locate (List.ofFn fun i : Fin n => (cs i).ic.F) f).1
              (locate (List.ofFn fun i : Fin n => (cs i).ic.F) f).2 i j l r
        else fail .shapeError
      | b, c => if b.ic.isCat && c.ic.isCat then fail .shapeError else fail .unsupported
  | cat2 ia n cs, b, c =>
    cached3 ia b.id c.id <| guard3 (T.cat2 ia n cs).ic b.ic c.ic <|
      match b, c with
      | cat2 _ m ds, cat2 _ m' es =>
        mapM' (seqM fun i : Fin n => seqM fun j : Fin m => seqM fun l : Fin m' => tpM (cs i) (ds j) (es l)) fun k f i j l r =>
          let p := locate (List.ofFn fun i : Fin n => (cs i).ic.C) i
          let p' := locate (List.ofFn fun j : Fin m => (ds j).ic.C) j
          let p'' := locate (List.ofFn fun l : Fin m' => (es l).ic.C) l
          pick3 (fun i' : Fin n => pick3 (fun j' : Fin m => pick3 (k i' j') p''.1) p'.1) p.1 f p.2 p'.2 p''.2 r
      | b, c => if b.ic.isCat && c.ic.isCat then fail .shapeError else fail .unsupported
  | prod ia a, b, c =>
    cached3 ia b.id c.id <| guard3 (T.prod ia a).ic b.ic c.ic <|
      match b, c with
      | prod _ b, prod _ c =>
        mapM' (tpM a b c) fun k _ i j l r => ∏ f ∈ Finset.range a.ic.F, k f i j l r
      | _, _ => fail .unsupported
  | sum ia a Co R1 w, b, c =>
    cached3 ia b.id c.id <| guard3 (T.sum ia a Co R1 w).ic b.ic c.ic <|
      match b, c with
      | sum _ b _ _ w', sum _ c _ _ w'' =>
        mapM' (tpM a b c) fun k f x y z r =>
          ∑ i ∈ Finset.range a.ic.C, ∑ j ∈ Finset.range b.ic.C, ∑ l ∈ Finset.range c.ic.C,
            w f i x r * w' f j y r * w'' f l z r * k f i j l r
      | _, _ => fail .unsupported

/-- `triple_product_scalar(a, b, c, cache=cache)`, inner_product_core.py:1081-1093. -/
noncomputable def tpScalarM (a b c : T) : M Memo3 ℝ :=
  if (a.ic.F, a.ic.C, a.ic.R) ≠ (1, 1, 1) ∨ (b.ic.F, b.ic.C, b.ic.R) ≠ (1, 1, 1) ∨
      (c.ic.F, c.ic.C, c.ic.R) ≠ (1, 1, 1) then fail .shapeError
  else mapM' (tpM a b c) fun k => k 0 0 0 0 0

/-- `z_parts` with a cache, exp_socs.py:76-80. -/
noncomputable def zPartsM (m : T) : List T → M Memo3 (List ℝ)
  | [] => fun s => (.ok [], s)
  | c :: cs => fun s =>
    match tpScalarM c c m s with
    | (.error e, s1) => (.error e, s1)
    | (.ok z, s1) => mapM' (zPartsM m cs) (fun zs => z :: zs) s1

/-- `ExpSOCS._log_partition` with a cache that holds no result of this module yet, exp_socs.py:70-87. -/
noncomputable def logZM (m : T) (comps : List T) : M Memo3 ℝ :=
  mapM' (zPartsM m comps) fun zs => Real.log (clampMin (max zs.sum 0))

/-- A call with the cache. -/
inductive Call3 where
  | tensor (a b c : T)
  | scalar (a b c : T)
  | logZ (m : T) (comps : List T)

/-- What a call returns. -/
inductive Out3 where
  | mat (k : Except Exc Mat3)
  | num (z : Except Exc ℝ)

/-- One call. -/
noncomputable def Call3.run : Call3 → Memo3 → Out3 × Memo3
  | .tensor a b c, m => (.mat (tpM a b c m).1, (tpM a b c m).2)
  | .scalar a b c, m => (.num (tpScalarM a b c m).1, (tpScalarM a b c m).2)
  | .logZ t comps, m => (.num (logZM t comps m).1, (logZM t comps m).2)

/-- A sequence of calls with one cache. -/
noncomputable def runAll3 : List Call3 → Memo3 → List Out3 × Memo3
  | [], m => ([], m)
  | c :: cs, m => ((c.run m).1 :: (runAll3 cs (c.run m).2).1, (runAll3 cs (c.run m).2).2)

/-! ## Specification -/

/-- The entries of the tensors `[feature, channel of a, channel of b, channel of c, repetition]` agree. -/
def Agree3 (a b c : IC) (k k' : Mat3) : Prop :=
  ∀ f < a.F, ∀ i < a.C, ∀ j < b.C, ∀ l < c.C, ∀ r < a.R, k f i j l r = k' f i j l r

/-- A call returned what the same call returns without a cache. -/
def Call3.Right : Call3 → Out3 → Prop
  | .tensor a b c, .mat x => Same (Agree3 a.ic b.ic c.ic) x (tp a.ic b.ic c.ic)
  | .scalar a b c, .num x => x = tpScalar a.ic b.ic c.ic
  | .logZ m comps, .num x => x = Exp.logZ ⟨m.ic, comps.map T.ic⟩
  | _, _ => False

/-- Circuits for which the leaf formulas are symmetric (C77). -/
structure Good3 (disc : Var → Bool) (a : IC) : Prop where
  wf : Wf a
  sorted : Sorted a
  leaves : Leaves (Admissible3 disc) a

/-- The module exists and is good. -/
def Fine3 (disc : Var → Bool) (obj : ℕ → T) (t : T) : Prop := On obj t ∧ Good3 disc t.ic

/-- The modules of a call exist, and are good. -/
def Call3.Fine (disc : Var → Bool) (obj : ℕ → T) : Call3 → Prop
  | .tensor a b c => Fine3 disc obj a ∧ Fine3 disc obj b ∧ Fine3 disc obj c
  | .scalar a b c => Fine3 disc obj a ∧ Fine3 disc obj b ∧ Fine3 disc obj c
  | .logZ m comps => Fine3 disc obj m ∧ ∀ t ∈ comps, Fine3 disc obj t

/-! ## Proofs -/

/-- What the memo holds is right. -/
def Memo3Ok (obj : ℕ → T) (m : Memo3) : Prop :=
  ∀ i j l k, m i j l = some k → ∃ k', tp (obj i).ic (obj j).ic (obj l).ic = .ok k' ∧
    Agree3 (obj i).ic (obj j).ic (obj l).ic k k'

theorem Memo3Ok.set {obj : ℕ → T} {m : Memo3} (hm : Memo3Ok obj m) {i j l : ℕ} {k k' : Mat3}
    (h : tp (obj i).ic (obj j).ic (obj l).ic = .ok k') (ha : Agree3 (obj i).ic (obj j).ic (obj l).ic k k') :
    Memo3Ok obj (m.set i j l k) := by
  intro i' j' l' k2 h2
  unfold Memo3.set at h2
  split_ifs at h2 with hc
  · obtain ⟨rfl, rfl, rfl⟩ := hc
    cases h2
    exact ⟨k', h, ha⟩
  · exact hm _ _ _ _ h2

theorem swap3_agree {disc : Var → Bool} {a b c : IC} (ga : Good3 disc a) (gb : Good3 disc b) (gc : Good3 disc c)
    {k k' : Mat3} (h : tp b a c = .ok k') (hk : Agree3 b a c k k') :
    ∃ k2, tp a b c = .ok k2 ∧ Agree3 a b c (swap3 k) k2 := by
  obtain ⟨k2, hk2, he⟩ := C77_symmetric disc h gb.wf ga.wf gc.wf gb.sorted ga.sorted gc.sorted gb.leaves ga.leaves gc.leaves
  obtain ⟨-, -, ⟨hF, -⟩, hR, -⟩ := tpChecks_ok (tp_checks h)
  refine ⟨k2, hk2, fun f hf i hi j hj l hl r hr => ?_⟩
  rw [he f (hF ▸ hf) j hj i hi l hl r (hR ▸ hr)]
  exact hk f (hF ▸ hf) j hj i hi l hl r (hR ▸ hr)

theorem cached3_sound {disc : Var → Bool} {obj : ℕ → T} {a b c : T} (fa : Fine3 disc obj a) (fb : Fine3 disc obj b)
    (fc : Fine3 disc obj c) {body : M Memo3 Mat3}
    (h : Sound (Memo3Ok obj) (Agree3 a.ic b.ic c.ic) body (tp a.ic b.ic c.ic)) :
    Sound (Memo3Ok obj) (Agree3 a.ic b.ic c.ic) (cached3 a.id b.id c.id body) (tp a.ic b.ic c.ic) := by
  intro m hm
  unfold cached3
  cases h1 : m a.id b.id c.id with
  | some k =>
    obtain ⟨k', hk', hA⟩ := hm _ _ _ _ h1
    rw [fa.1.self, fb.1.self, fc.1.self] at hk' hA
    exact ⟨⟨k', hk', hA⟩, hm⟩
  | none =>
    dsimp only
    cases h2 : m b.id a.id c.id with
    | some k =>
      obtain ⟨k', hk', hA⟩ := hm _ _ _ _ h2
      rw [fa.1.self, fb.1.self, fc.1.self] at hk' hA
      obtain ⟨k2, hk2, hA2⟩ := swap3_agree fa.2 fb.2 fc.2 hk' hA
      refine ⟨⟨k2, hk2, hA2⟩, hm.set (k' := k2) ?_ ?_⟩ <;> rw [fa.1.self, fb.1.self, fc.1.self] <;> assumption
    | none =>
      dsimp only
      have := h m hm
      rcases hb : body m with ⟨r, m'⟩
      rw [hb] at this
      cases r with
      | error e => exact this
      | ok k =>
        obtain ⟨⟨k', hk', hA⟩, hm'⟩ := this
        refine ⟨⟨k', hk', hA⟩, hm'.set (k' := k') ?_ ?_⟩ <;> rw [fa.1.self, fb.1.self, fc.1.self] <;> assumption

theorem tp_error {a b c : IC} {e : Exc} (h : tpChecks a b c = .error e) : tp a b c = .error e := by
  cases a <;> (unfold tp; simp only [h])

theorem guard3_sound {obj : ℕ → T} {a b c : IC} {P : Mat3 → Mat3 → Prop} {body : M Memo3 Mat3}
    (h : tpChecks a b c = .ok () → Sound (Memo3Ok obj) P body (tp a b c)) :
    Sound (Memo3Ok obj) P (guard3 a b c body) (tp a b c) := by
  unfold guard3
  cases hc : tpChecks a b c with
  | error e =>
    rw [tp_error hc]
    exact fail_sound e
  | ok u => exact h hc

theorem pick3_agree {n : ℕ} {k k' : Fin n → Mat3} {x : ℕ} (hx : x < n) {f i j l r : ℕ}
    (h : k ⟨x, hx⟩ f i j l r = k' ⟨x, hx⟩ f i j l r) : pick3 k x f i j l r = pick3 k' x f i j l r := by
  simp only [pick3, dif_pos hx, h]

theorem tpM_sound {disc : Var → Bool} {obj : ℕ → T} : ∀ {a b c : T}, Fine3 disc obj a → Fine3 disc obj b →
    Fine3 disc obj c → Sound (Memo3Ok obj) (Agree3 a.ic b.ic c.ic) (tpM a b c) (tp a.ic b.ic c.ic) := by
  intro a
  induction a with
  | leaf ia q C R par =>
    intro b c fa fb fc
    unfold tpM
    refine cached3_sound (a := T.leaf ia q C R par) fa fb fc (guard3_sound fun hc m hm => ⟨?_, hm⟩)
    cases tp (T.leaf ia q C R par).ic b.ic c.ic with
    | error e => rfl
    | ok k => exact ⟨k, rfl, fun _ _ _ _ _ _ _ _ _ _ => rfl⟩
  | cat1 ia n cs ih =>
    intro b c fa fb fc
    unfold tpM
    refine cached3_sound (a := T.cat1 ia n cs) fa fb fc (guard3_sound fun hc => ?_)
    cases b with
    | cat1 ib m ds =>
      cases c with
      | cat1 icc m' es =>
        simp only [T.ic] at hc ⊢
        simp only [tp, hc]
        by_cases h : n = m ∧ n = m'
        · obtain ⟨rfl, rfl⟩ := h
          rw [dif_pos ⟨rfl, rfl⟩, dif_pos ⟨rfl, rfl⟩]
          simp only [Fin.cast_eq_self]
          obtain ⟨⟨oa, ga⟩, ⟨ob, gb⟩, ⟨oc, gc⟩⟩ := fa, fb, fc
          obtain ⟨w1, w2, w3, w4, -⟩ := ga.wf
          obtain ⟨v1, v2, v3, v4, -⟩ := gb.wf
          obtain ⟨u1, u2, u3, u4, -⟩ := gc.wf
          refine map_sound (seqM_sound (P := fun i => Agree3 (cs i).ic (ds i).ic (es i).ic) fun i =>
            ih i ⟨oa.2 i, w2 i, ga.sorted i, ga.leaves i⟩ ⟨ob.2 i, v2 i, gb.sorted i, gb.leaves i⟩
              ⟨oc.2 i, u2 i, gc.sorted i, gc.leaves i⟩) ?_ (fun e he => by rw [he]) fun k hk => by rw [hk]
          intro k k' _ hP f hf i hi j hj l hl r hr
          obtain ⟨hp, hp2⟩ := locate_ofFn (s := fun i => (cs i).ic.F) (by simpa only [IC.F] using hf)
          refine pick3_agree hp ?_
          simp only [IC.C, IC.R, dif_pos w1] at hi hj hl hr
          exact hP ⟨_, hp⟩ _ hp2 _ (w3 ⟨0, w1⟩ ⟨_, hp⟩ ▸ hi) _ (v3 ⟨0, w1⟩ ⟨_, hp⟩ ▸ hj) _ (u3 ⟨0, w1⟩ ⟨_, hp⟩ ▸ hl) _
            (w4 ⟨0, w1⟩ ⟨_, hp⟩ ▸ hr)
        · rw [dif_neg h, dif_neg h]
          exact fail_sound _
      | _ =>
        simp only [T.ic] at hc ⊢
        simp only [tp, hc]
        exact ite_sound (fun _ => fail_sound _) fun _ => fail_sound _
    | _ =>
      simp only [T.ic] at hc ⊢
      simp only [tp, hc]
      exact ite_sound (fun _ => fail_sound _) fun _ => fail_sound _
  | cat2 ia n cs ih =>
    intro b c fa fb fc
    unfold tpM
    refine cached3_sound (a := T.cat2 ia n cs) fa fb fc (guard3_sound fun hc => ?_)
    cases b with
    | cat2 ib m ds =>
      cases c with
      | cat2 icc m' es =>
        simp only [T.ic] at hc ⊢
        simp only [tp, hc]
        obtain ⟨⟨oa, ga⟩, ⟨ob, gb⟩, ⟨oc, gc⟩⟩ := fa, fb, fc
        obtain ⟨w1, w2, w3, w4, -⟩ := ga.wf
        obtain ⟨v1, v2, v3, v4, -⟩ := gb.wf
        obtain ⟨u1, u2, u3, u4, -⟩ := gc.wf
        refine map_sound (seqM_sound (P := fun i (k k' : Fin m → Fin m' → Mat3) => ∀ j l, Agree3 (cs i).ic (ds j).ic (es l).ic (k j l) (k' j l))
          fun i => seqM_sound (P := fun j (k k' : Fin m' → Mat3) => ∀ l, Agree3 (cs i).ic (ds j).ic (es l).ic (k l) (k' l)) fun j =>
          seqM_sound (P := fun l => Agree3 (cs i).ic (ds j).ic (es l).ic) fun l =>
          ih i ⟨oa.2 i, w2 i, ga.sorted i, ga.leaves i⟩ ⟨ob.2 j, v2 j, gb.sorted j, gb.leaves j⟩
            ⟨oc.2 l, u2 l, gc.sorted l, gc.leaves l⟩) ?_ (fun e he => by rw [he]) fun k hk => by rw [hk]
        intro k k' _ hP f hf i hi j hj l hl r hr
        obtain ⟨hp, hp2⟩ := locate_ofFn (s := fun i => (cs i).ic.C) (by simpa only [IC.C] using hi)
        obtain ⟨hq, hq2⟩ := locate_ofFn (s := fun i => (ds i).ic.C) (by simpa only [IC.C] using hj)
        obtain ⟨ho, ho2⟩ := locate_ofFn (s := fun i => (es i).ic.C) (by simpa only [IC.C] using hl)
        refine pick3_agree hp (pick3_agree hq (pick3_agree ho ?_))
        simp only [IC.F, IC.R, dif_pos w1] at hf hr
        exact hP ⟨_, hp⟩ ⟨_, hq⟩ ⟨_, ho⟩ _ (w3 ⟨0, w1⟩ ⟨_, hp⟩ ▸ hf) _ hp2 _ hq2 _ ho2 _ (w4 ⟨0, w1⟩ ⟨_, hp⟩ ▸ hr)
      | _ =>
        simp only [T.ic] at hc ⊢
        simp only [tp, hc]
        exact ite_sound (fun _ => fail_sound _) fun _ => fail_sound _
    | _ =>
      simp only [T.ic] at hc ⊢
      simp only [tp, hc]
      exact ite_sound (fun _ => fail_sound _) fun _ => fail_sound _
  | prod ia a ih =>
    intro b c fa fb fc
    unfold tpM
    refine cached3_sound (a := T.prod ia a) fa fb fc (guard3_sound fun hc => ?_)
    cases b with
    | prod ib b =>
      cases c with
      | prod icc c =>
        simp only [T.ic] at hc ⊢
        simp only [tp, hc]
        obtain ⟨⟨oa, ga⟩, ⟨ob, gb⟩, ⟨oc, gc⟩⟩ := fa, fb, fc
        refine map_sound (ih ⟨oa.2, ga.wf, ga.sorted, ga.leaves⟩ ⟨ob.2, gb.wf, gb.sorted, gb.leaves⟩
          ⟨oc.2, gc.wf, gc.sorted, gc.leaves⟩) ?_ (fun e he => by rw [he]) fun k hk => by rw [hk]
        intro k k' _ hP f hf i hi j hj l hl r hr
        exact Finset.prod_congr rfl fun g hg => hP g (Finset.mem_range.1 hg) i hi j hj l hl r hr
      | _ =>
        simp only [T.ic] at hc ⊢
        simp only [tp, hc]
        exact fail_sound _
    | _ =>
      simp only [T.ic] at hc ⊢
      simp only [tp, hc]
      exact fail_sound _
  | sum ia a Co R1 w ih =>
    intro b c fa fb fc
    unfold tpM
    refine cached3_sound (a := T.sum ia a Co R1 w) fa fb fc (guard3_sound fun hc => ?_)
    cases b with
    | sum ib b Co' R2 w' =>
      cases c with
      | sum icc c Co'' R3 w'' =>
        simp only [T.ic] at hc ⊢
        simp only [tp, hc]
        obtain ⟨⟨oa, ga⟩, ⟨ob, gb⟩, ⟨oc, gc⟩⟩ := fa, fb, fc
        refine map_sound (ih ⟨oa.2, ga.wf.1, ga.sorted, ga.leaves⟩ ⟨ob.2, gb.wf.1, gb.sorted, gb.leaves⟩
          ⟨oc.2, gc.wf.1, gc.sorted, gc.leaves⟩) ?_ (fun e he => by rw [he]) fun k hk => by rw [hk]
        intro k k' _ hP f hf x hx y hy z hz r hr
        refine Finset.sum_congr rfl fun i hi => Finset.sum_congr rfl fun j hj => Finset.sum_congr rfl fun l hl => ?_
        have hr' : r < a.ic.R := by rw [← ga.wf.2]; exact hr
        rw [hP f hf i (Finset.mem_range.1 hi) j (Finset.mem_range.1 hj) l (Finset.mem_range.1 hl) r hr']
      | _ =>
        simp only [T.ic] at hc ⊢
        simp only [tp, hc]
        exact fail_sound _
    | _ =>
      simp only [T.ic] at hc ⊢
      simp only [tp, hc]
      exact fail_sound _

theorem Sound.eq {σ α : Type} {I : σ → Prop} {x : M σ α} {y : Except Exc α} (h : Sound I Eq x y) {m : σ} (hm : I m) :
    (x m).1 = y := by
  have := (h m hm).1
  cases hx : (x m).1 with
  | error e => rw [hx] at this; exact this.symm
  | ok z => rw [hx] at this; obtain ⟨z', e1, e2⟩ := this; rw [e1, e2]

theorem tpScalarM_sound {disc : Var → Bool} {obj : ℕ → T} {a b c : T} (fa : Fine3 disc obj a) (fb : Fine3 disc obj b)
    (fc : Fine3 disc obj c) : Sound (Memo3Ok obj) Eq (tpScalarM a b c) (tpScalar a.ic b.ic c.ic) := by
  unfold tpScalarM tpScalar
  refine ite_sound (fun _ => fail_sound _) fun h => ?_
  simp only [ne_eq, Prod.mk.injEq, not_not, not_or] at h
  refine map_sound (tpM_sound fa fb fc) ?_ (fun e he => by rw [he]) fun k hk => by rw [hk]
  intro k k' _ hP
  exact hP 0 (by omega) 0 (by omega) 0 (by omega) 0 (by omega) 0 (by omega)

theorem zPartsM_sound {disc : Var → Bool} {obj : ℕ → T} {m : T} (fm : Fine3 disc obj m) : ∀ {cs : List T},
    (∀ c ∈ cs, Fine3 disc obj c) → Sound (Memo3Ok obj) Eq (zPartsM m cs) (zParts m.ic (cs.map T.ic))
  | [], _ => fun _ hm => ⟨⟨_, rfl, rfl⟩, hm⟩
  | c :: cs, h => by
    have fc := h c (List.mem_cons_self ..)
    intro s hs
    have h1 := tpScalarM_sound fc fc fm s hs
    simp only [zPartsM, List.map_cons, zParts]
    rcases hx : tpScalarM c c m s with ⟨r, s1⟩
    rw [hx] at h1
    cases r with
    | error e =>
      have : tpScalar c.ic c.ic m.ic = .error e := h1.1
      rw [this]
      exact ⟨rfl, h1.2⟩
    | ok z =>
      obtain ⟨⟨z', e1, rfl⟩, hs1⟩ := h1
      rw [e1]
      exact map_sound (g := fun zs => z :: zs) (zPartsM_sound fm fun c' hc' => h c' (List.mem_cons_of_mem _ hc'))
        (fun k k' _ e => by rw [e]) (fun e he => by rw [he]) (fun k hk => by rw [hk]) s1 hs1

theorem logZM_sound {disc : Var → Bool} {obj : ℕ → T} {m : T} (fm : Fine3 disc obj m) {cs : List T}
    (h : ∀ c ∈ cs, Fine3 disc obj c) :
    Sound (Memo3Ok obj) Eq (logZM m cs) (Exp.logZ ⟨m.ic, cs.map T.ic⟩) := by
  unfold logZM Exp.logZ
  exact map_sound (zPartsM_sound fm h) (fun k k' _ e => by rw [e]) (fun e he => by rw [he]) fun k hk => by rw [hk]

theorem runAll3_right {disc : Var → Bool} {obj : ℕ → T} : ∀ {calls : List Call3} {m : Memo3}, Memo3Ok obj m →
    (∀ c ∈ calls, c.Fine disc obj) →
    List.Forall₂ Call3.Right calls (runAll3 calls m).1 ∧ Memo3Ok obj (runAll3 calls m).2
  | [], _, hm, _ => ⟨List.Forall₂.nil, hm⟩
  | c :: cs, m, hm, h => by
    have h1 : c.Right (c.run m).1 ∧ Memo3Ok obj (c.run m).2 := by
      have hc := h c (List.mem_cons_self ..)
      cases c with
      | tensor a b c => exact tpM_sound hc.1 hc.2.1 hc.2.2 m hm
      | scalar a b c =>
        have := tpScalarM_sound hc.1 hc.2.1 hc.2.2
        exact ⟨this.eq hm, (this m hm).2⟩
      | logZ t comps =>
        have := logZM_sound hc.1 hc.2
        exact ⟨this.eq hm, (this m hm).2⟩
    obtain ⟨h3, h4⟩ := runAll3_right h1.2 fun c' hc' => h c' (List.mem_cons_of_mem _ hc')
    exact ⟨List.Forall₂.cons h1.1 h3, h4⟩

/-- **C87 (triple products).** For every sequence of calls of `triple_product_tensor`, `triple_product_scalar` and of
log-partitions of ExpSOCS with one cache that is new at the start, on modules that keep their identities and parameters,
with modules shared in any way: every call raises the error, or returns the values, that it does without a cache. -/
theorem C87_triple_memo (disc : Var → Bool) {obj : ℕ → T} {calls : List Call3} (h : ∀ c ∈ calls, c.Fine disc obj) :
    List.Forall₂ Call3.Right calls (runAll3 calls Memo3.empty).1 :=
  (runAll3_right (m := Memo3.empty) (by intro i j l k hk; cases hk) h).1

/-- **C87 (triple products).** After any such sequence each stored tensor is the triple product of the modules it is
stored for. -/
theorem C87_triple_stored (disc : Var → Bool) {obj : ℕ → T} {calls : List Call3} (h : ∀ c ∈ calls, c.Fine disc obj)
    {i j l : ℕ} {k : Mat3} (hk : (runAll3 calls Memo3.empty).2 i j l = some k) :
    ∃ k', tp (obj i).ic (obj j).ic (obj l).ic = .ok k' ∧ Agree3 (obj i).ic (obj j).ic (obj l).ic k k' :=
  (runAll3_right (m := Memo3.empty) (by intro i j l k hk; cases hk) h).2 i j l k hk

end IpMemo
end Verif

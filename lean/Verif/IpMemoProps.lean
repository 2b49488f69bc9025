import Verif.IpMemo

/-!
# C87: giving `inner_product_matrix` a cache changes no result
-/

namespace Verif
namespace IpMemo

open Inner

/-! ## Plumbing -/

/-- What the memo holds is right. -/
def MemoOk (obj : ℕ → T) (m : Memo) : Prop :=
  ∀ i j k, m i j = some k → ∃ k', ip (obj i).ic (obj j).ic = .ok k' ∧ Agree (obj i).ic (obj j).ic k k'

/-- The computation keeps the memo right and returns what the direct computation returns. -/
def Sound {σ α : Type} (I : σ → Prop) (P : α → α → Prop) (x : M σ α) (y : Except Exc α) : Prop :=
  ∀ m, I m → Same P (x m).1 y ∧ I (x m).2

theorem MemoOk.set {obj : ℕ → T} {m : Memo} (hm : MemoOk obj m) {i j : ℕ} {k k' : Mat}
    (h : ip (obj i).ic (obj j).ic = .ok k') (ha : Agree (obj i).ic (obj j).ic k k') : MemoOk obj (m.set i j k) := by
  intro i' j' k2 h2
  unfold Memo.set at h2
  split_ifs at h2 with hc
  · obtain ⟨rfl, rfl⟩ := hc
    cases h2
    exact ⟨k', h, ha⟩
  · exact hm _ _ _ h2

theorem fail_sound {σ α : Type} {I : σ → Prop} {P : α → α → Prop} (e : Exc) : Sound I P (fail e) (.error e) :=
  fun _ hm => ⟨rfl, hm⟩

theorem seqM_sound {σ α : Type} {I : σ → Prop} : ∀ {n : ℕ} {P : Fin n → α → α → Prop} {g : Fin n → M σ α}
    {h : Fin n → Except Exc α}, (∀ i, Sound I (P i) (g i) (h i)) →
    Sound I (fun k k' => ∀ i, P i (k i) (k' i)) (seqM g) (seqFin h)
  | 0, P, g, h, _ => fun m hm => ⟨⟨_, rfl, fun i => i.elim0⟩, hm⟩
  | n + 1, P, g, h, H => by
    intro m hm
    have h0 := H 0 m hm
    unfold seqM seqFin
    rcases hg : g 0 m with ⟨r, m1⟩
    rw [hg] at h0
    cases r with
    | error e =>
      have : h 0 = .error e := h0.1
      rw [this]
      exact ⟨rfl, h0.2⟩
    | ok a =>
      obtain ⟨⟨a', ha', hP⟩, hm1⟩ := h0
      rw [ha']
      have hr := seqM_sound (P := fun i => P i.succ) (fun i => H i.succ) m1 hm1
      dsimp only
      rcases hs : seqM (fun i => g i.succ) m1 with ⟨r2, m2⟩
      rw [hs] at hr
      cases r2 with
      | error e =>
        have : (seqFin fun i => h i.succ) = .error e := hr.1
        rw [this]
        exact ⟨rfl, hr.2⟩
      | ok rest =>
        obtain ⟨⟨rest', hrest, hPr⟩, hm2⟩ := hr
        rw [hrest]
        refine ⟨⟨_, rfl, fun i => ?_⟩, hm2⟩
        refine Fin.cases ?_ (fun i => ?_) i
        · exact hP
        · exact hPr i

theorem map_sound {σ α β : Type} {I : σ → Prop} {P : α → α → Prop} {Q : β → β → Prop} {x : M σ α} {y : Except Exc α}
    {g g' : α → β} (h : Sound I P x y) (hg : ∀ k k', y = .ok k' → P k k' → Q (g k) (g' k')) {z : Except Exc β}
    (hz : ∀ e, y = .error e → z = .error e) (hz' : ∀ k, y = .ok k → z = .ok (g' k)) : Sound I Q (mapM' x g) z := by
  intro m hm
  have := h m hm
  unfold mapM'
  rcases hx : x m with ⟨r, m'⟩
  rw [hx] at this
  cases r with
  | error e =>
    have he : y = .error e := this.1
    rw [hz e he]
    exact ⟨rfl, this.2⟩
  | ok a =>
    obtain ⟨⟨a', ha', hP⟩, hm'⟩ := this
    rw [hz' a' ha']
    exact ⟨⟨_, rfl, hg _ _ ha' hP⟩, hm'⟩

theorem On.self {obj : ℕ → T} {t : T} (h : On obj t) : obj t.id = t := by
  cases t <;> simp only [On] at h
  · exact h
  · exact h.1
  · exact h.1
  · exact h.1
  · exact h.1

theorem swap_agree {disc : Var → Bool} {S : Set ℝ} (hS : Separated S) {a b : IC} (ga : Good disc S a)
    (gb : Good disc S b) {k k' : Mat} (h : ip b a = .ok k') (hk : Agree b a k k') :
    ∃ k2, ip a b = .ok k2 ∧ Agree a b (swap k) k2 := by
  obtain ⟨k2, hk2, he⟩ := C35_symmetric disc hS h gb.wf ga.wf gb.sorted ga.sorted gb.leaves ga.leaves
  have hF := (ip_shape h).2.1
  have hR := (ip_shape h).2.2 gb.wf ga.wf
  refine ⟨k2, hk2, fun f hf i hi j hj r hr => ?_⟩
  rw [he f (hF ▸ hf) j hj i hi r (hR ▸ hr)]
  exact hk f (hF ▸ hf) j hj i hi r (hR ▸ hr)

theorem cached_sound {disc : Var → Bool} {S : Set ℝ} (hS : Separated S) {obj : ℕ → T} {a b : T} (oa : On obj a)
    (ob : On obj b) (ga : Good disc S a.ic) (gb : Good disc S b.ic) {body : M Memo Mat}
    (h : Sound (MemoOk obj) (Agree a.ic b.ic) body (ip a.ic b.ic)) :
    Sound (MemoOk obj) (Agree a.ic b.ic) (cached a.id b.id body) (ip a.ic b.ic) := by
  intro m hm
  unfold cached
  cases h1 : m a.id b.id with
  | some k =>
    obtain ⟨k', hk', hA⟩ := hm _ _ _ h1
    rw [oa.self, ob.self] at hk' hA
    exact ⟨⟨k', hk', hA⟩, hm⟩
  | none =>
    dsimp only
    cases h2 : m b.id a.id with
    | some k =>
      obtain ⟨k', hk', hA⟩ := hm _ _ _ h2
      rw [oa.self, ob.self] at hk' hA
      obtain ⟨k2, hk2, hA2⟩ := swap_agree hS ga gb hk' hA
      refine ⟨⟨k2, hk2, hA2⟩, hm.set (k' := k2) ?_ ?_⟩ <;> rw [oa.self, ob.self] <;> assumption
    | none =>
      dsimp only
      have := h m hm
      rcases hb : body m with ⟨r, m'⟩
      rw [hb] at this
      cases r with
      | error e => exact this
      | ok k =>
        obtain ⟨⟨k', hk', hA⟩, hm'⟩ := this
        refine ⟨⟨k', hk', hA⟩, hm'.set (k' := k') ?_ ?_⟩ <;> rw [oa.self, ob.self] <;> assumption

theorem pick_agree {n : ℕ} {k k' : Fin n → Mat} {i : ℕ} (hi : i < n) {f a b r : ℕ}
    (h : k ⟨i, hi⟩ f a b r = k' ⟨i, hi⟩ f a b r) : pick k i f a b r = pick k' i f a b r := by
  simp only [pick, dif_pos hi, h]

/-! ## One call -/

theorem ite_sound {σ α : Type} {I : σ → Prop} {P : α → α → Prop} {c : Prop} [Decidable c] {x x' : M σ α} {y y' : Except Exc α}
    (h : c → Sound I P x y) (h' : ¬c → Sound I P x' y') :
    Sound I P (if c then x else x') (if c then y else y') := by
  split_ifs with hc
  · exact h hc
  · exact h' hc

theorem ipM_sound {disc : Var → Bool} {S : Set ℝ} (hS : Separated S) {obj : ℕ → T} : ∀ {a b : T}, On obj a → On obj b →
    Good disc S a.ic → Good disc S b.ic → Sound (MemoOk obj) (Agree a.ic b.ic) (ipM a b) (ip a.ic b.ic) := by
  intro a
  induction a with
  | leaf ia q C1 R1 par1 =>
    intro b oa ob ga gb
    cases b with
    | leaf ib q' C2 R2 par2 =>
      simp only [ipM]
      refine cached_sound (a := T.leaf ia q C1 R1 par1) (b := T.leaf ib q' C2 R2 par2) hS oa ob ga gb fun m hm =>
        ⟨?_, hm⟩
      simp only [T.ic]
      cases ip (.leaf q C1 R1 par1) (.leaf q' C2 R2 par2) with
      | error e => rfl
      | ok k => exact ⟨k, rfl, fun _ _ _ _ _ _ _ _ => rfl⟩
    | _ =>
      simp only [ipM]
      refine cached_sound hS oa ob ga gb ?_
      simp only [T.ic, ip]
      exact fail_sound _
  | cat1 ia n cs ih =>
    intro b oa ob ga gb
    cases b with
    | cat1 ib m ds =>
      simp only [ipM]
      refine cached_sound (a := T.cat1 ia n cs) (b := T.cat1 ib m ds) hS oa ob ga gb ?_
      simp only [T.ic, ip]
      refine ite_sound (fun _ => fail_sound _) fun h1 => ite_sound (fun _ => fail_sound _) fun h2 =>
        ite_sound (fun _ => fail_sound _) fun h3 => ?_
      by_cases h : n = m
      · subst h
        rw [dif_pos rfl, dif_pos rfl]
        simp only [Fin.cast_eq_self]
        obtain ⟨w1, w2, w3, w4, -⟩ := ga.wf
        obtain ⟨v1, v2, v3, v4, -⟩ := gb.wf
        refine map_sound (seqM_sound (P := fun i => Agree (cs i).ic (ds i).ic) fun i =>
          ih i (oa.2 i) (ob.2 i) ⟨w2 i, ga.sorted i, ga.leaves i⟩ ⟨v2 i, gb.sorted i, gb.leaves i⟩) ?_ (fun e he => by rw [he]) fun k hk => by rw [hk]
        intro k k' _ hP f hf i hi j hj r hr
        obtain ⟨hp, hp2⟩ := locate_ofFn (s := fun i => (cs i).ic.F) (by simpa only [IC.F] using hf)
        refine pick_agree hp ?_
        simp only [IC.C, IC.R, dif_pos w1] at hi hj hr
        exact hP ⟨_, hp⟩ _ hp2 _ (w3 ⟨0, w1⟩ ⟨_, hp⟩ ▸ hi) _ (v3 ⟨0, w1⟩ ⟨_, hp⟩ ▸ hj) _ (w4 ⟨0, w1⟩ ⟨_, hp⟩ ▸ hr)
      · rw [dif_neg h, dif_neg h]
        exact fail_sound _
    | _ =>
      simp only [ipM]
      refine cached_sound hS oa ob ga gb ?_
      simp only [T.ic, ip]
      exact fail_sound _
  | cat2 ia n cs ih =>
    intro b oa ob ga gb
    cases b with
    | cat2 ib m ds =>
      simp only [ipM]
      refine cached_sound (a := T.cat2 ia n cs) (b := T.cat2 ib m ds) hS oa ob ga gb ?_
      simp only [T.ic, ip]
      refine ite_sound (fun _ => fail_sound _) fun h1 => ite_sound (fun _ => fail_sound _) fun h2 =>
        ite_sound (fun _ => fail_sound _) fun h3 => ?_
      obtain ⟨w1, w2, w3, w4, -, -⟩ := ga.wf
      obtain ⟨v1, v2, v3, v4, -, -⟩ := gb.wf
      refine map_sound (seqM_sound (P := fun i k k' => ∀ j, Agree (cs i).ic (ds j).ic (k j) (k' j)) fun i =>
        seqM_sound (P := fun j => Agree (cs i).ic (ds j).ic) fun j =>
          ih i (oa.2 i) (ob.2 j) ⟨w2 i, ga.sorted i, ga.leaves i⟩ ⟨v2 j, gb.sorted j, gb.leaves j⟩) ?_ (fun e he => by rw [he]) fun k hk => by rw [hk]
      intro k k' _ hP f hf i hi j hj r hr
      obtain ⟨hp, hp2⟩ := locate_ofFn (s := fun i => (cs i).ic.C) (by simpa only [IC.C] using hi)
      obtain ⟨hq, hq2⟩ := locate_ofFn (s := fun i => (ds i).ic.C) (by simpa only [IC.C] using hj)
      refine pick_agree hp (pick_agree hq ?_)
      simp only [IC.F, IC.R, dif_pos w1] at hf hr
      exact hP ⟨_, hp⟩ ⟨_, hq⟩ _ (w3 ⟨0, w1⟩ ⟨_, hp⟩ ▸ hf) _ hp2 _ hq2 _ (w4 ⟨0, w1⟩ ⟨_, hp⟩ ▸ hr)
    | _ =>
      simp only [ipM]
      refine cached_sound hS oa ob ga gb ?_
      simp only [T.ic, ip]
      exact fail_sound _
  | prod ia c ih =>
    intro b oa ob ga gb
    cases b with
    | prod ib d =>
      simp only [ipM]
      refine cached_sound (a := T.prod ia c) (b := T.prod ib d) hS oa ob ga gb ?_
      simp only [T.ic, ip]
      refine ite_sound (fun _ => fail_sound _) fun h1 => ite_sound (fun _ => fail_sound _) fun h2 => ?_
      refine map_sound (ih oa.2 ob.2 ⟨ga.wf, ga.sorted, ga.leaves⟩ ⟨gb.wf, gb.sorted, gb.leaves⟩) ?_ (fun e he => by rw [he]) fun k hk => by rw [hk]
      intro k k' _ hP f hf i hi j hj r hr
      exact Finset.prod_congr rfl fun g hg => hP g (Finset.mem_range.1 hg) i hi j hj r hr
    | _ =>
      simp only [ipM]
      refine cached_sound hS oa ob ga gb ?_
      simp only [T.ic, ip]
      exact fail_sound _
  | sum ia c Co R1 w ih =>
    intro b oa ob ga gb
    cases b with
    | sum ib d Co' R2 w' =>
      simp only [ipM]
      refine cached_sound (a := T.sum ia c Co R1 w) (b := T.sum ib d Co' R2 w') hS oa ob ga gb ?_
      simp only [T.ic, ip]
      refine ite_sound (fun _ => fail_sound _) fun h1 => ite_sound (fun _ => fail_sound _) fun h2 =>
        ite_sound (fun _ => fail_sound _) fun h3 => ?_
      refine map_sound (ih oa.2 ob.2 ⟨ga.wf.1, ga.sorted, ga.leaves⟩ ⟨gb.wf.1, gb.sorted, gb.leaves⟩) ?_ (fun e he => by rw [he]) fun k hk => by rw [hk]
      intro k k' _ hP f hf x hx y hy r hr
      refine Finset.sum_congr rfl fun i hi => Finset.sum_congr rfl fun j hj => ?_
      have hr' : r < c.ic.R := by rw [← ga.wf.2]; exact hr
      rw [hP f hf i (Finset.mem_range.1 hi) j (Finset.mem_range.1 hj) r hr']
    | _ =>
      simp only [ipM]
      refine cached_sound hS oa ob ga gb ?_
      simp only [T.ic, ip]
      exact fail_sound _

theorem logSelfM_sound {disc : Var → Bool} {S : Set ℝ} (hS : Separated S) {obj : ℕ → T} {t : T} (o : On obj t)
    (g : Good disc S t.ic) : Sound (MemoOk obj) Eq (logSelfM t) (logSelf t.ic) := by
  unfold logSelfM logSelf
  refine ite_sound (fun _ => fail_sound _) fun h => ?_
  simp only [ne_eq, Prod.mk.injEq, not_not] at h
  refine map_sound (ipM_sound hS o o g g) ?_ (fun e he => by rw [he]) fun k hk => by rw [hk]
  intro k k' _ hP
  rw [hP 0 (by omega) 0 (by omega) 0 (by omega) 0 (by omega)]

/-! ## Histories -/

theorem run_right {disc : Var → Bool} {S : Set ℝ} (hS : Separated S) {obj : ℕ → T} {m : Memo} (hm : MemoOk obj m)
    {c : Call} (h : c.Fine disc S obj) : c.Right (c.run m).1 ∧ MemoOk obj (c.run m).2 := by
  cases c with
  | pair a b =>
    obtain ⟨oa, ob, ga, gb⟩ := h
    exact ipM_sound hS oa ob ga gb m hm
  | self t =>
    obtain ⟨o, g⟩ := h
    obtain ⟨h1, h2⟩ := logSelfM_sound hS o g m hm
    refine ⟨?_, h2⟩
    simp only [Call.run, Call.Right]
    cases hx : (logSelfM t m).1 with
    | error e => rw [hx] at h1; exact h1.symm
    | ok z => rw [hx] at h1; obtain ⟨z', e1, e2⟩ := h1; rw [e1, e2]

theorem runAll_right {disc : Var → Bool} {S : Set ℝ} (hS : Separated S) {obj : ℕ → T} : ∀ {calls : List Call} {m : Memo},
    MemoOk obj m → (∀ c ∈ calls, c.Fine disc S obj) →
    List.Forall₂ Call.Right calls (runAll calls m).1 ∧ MemoOk obj (runAll calls m).2
  | [], _, hm, _ => ⟨List.Forall₂.nil, hm⟩
  | c :: cs, m, hm, h => by
    obtain ⟨h1, h2⟩ := run_right hS hm (h c (List.mem_cons_self ..))
    obtain ⟨h3, h4⟩ := runAll_right hS h2 fun c' hc' => h c' (List.mem_cons_of_mem _ hc')
    exact ⟨List.Forall₂.cons h1 h3, h4⟩

/-- **C87.** For every sequence of calls of `inner_product_matrix` and `log_self_inner_product_scalar` with one cache
that is new at the start, on modules that keep their identities and parameters, with modules shared within and between
the circuits in any way: every call raises the error, or returns the values, that it does without a cache. -/
theorem C87_memo (disc : Var → Bool) {S : Set ℝ} (hS : Separated S) {obj : ℕ → T} {calls : List Call}
    (h : ∀ c ∈ calls, c.Fine disc S obj) : List.Forall₂ Call.Right calls (runAll calls Memo.empty).1 :=
  (runAll_right hS (m := Memo.empty) (by intro i j k hk; cases hk) h).1

/-- **C87.** After any such sequence, each stored tensor, also those stored by calls that raised later, is the inner
product of the two modules it is stored for. -/
theorem C87_stored (disc : Var → Bool) {S : Set ℝ} (hS : Separated S) {obj : ℕ → T} {calls : List Call}
    (h : ∀ c ∈ calls, c.Fine disc S obj) {i j : ℕ} {k : Mat} (hk : (runAll calls Memo.empty).2 i j = some k) :
    ∃ k', ip (obj i).ic (obj j).ic = .ok k' ∧ Agree (obj i).ic (obj j).ic k k' :=
  (runAll_right hS (m := Memo.empty) (by intro i j k hk; cases hk) h).2 i j k hk

/-- **C87.** A stored answer is used: after an accepted call, the same call returns the same tensor and changes
nothing. -/
theorem C87_hit {a b : T} {m : Memo} {k : Mat} (h : (ipM a b m).1 = .ok k) :
    ipM a b (ipM a b m).2 = (.ok k, (ipM a b m).2) := by
  have key : ∀ (i j : ℕ) (body : M Memo Mat) (m : Memo) (k : Mat), (cached i j body m).1 = .ok k →
      (cached i j body m).2 i j = some k := by
    intro i j body m k h
    unfold cached at h ⊢
    cases h1 : m i j with
    | some k1 => rw [h1] at h; simp only at h ⊢; cases h; exact h1
    | none =>
      rw [h1] at h
      dsimp only at h ⊢
      cases h2 : m j i with
      | some k1 => rw [h2] at h; dsimp only at h ⊢; cases h; simp [Memo.set]
      | none =>
        rw [h2] at h
        dsimp only at h ⊢
        rcases hb : body m with ⟨r, m'⟩
        rw [hb] at h
        cases r with
        | error e => cases h
        | ok k1 => dsimp only at h ⊢; cases h; simp [Memo.set]
  have hc : ∃ body, ipM a b = cached a.id b.id body := by
    cases a <;> cases b <;> simp only [ipM, T.id] <;> exact ⟨_, rfl⟩
  obtain ⟨body, hc⟩ := hc
  rw [hc] at h ⊢
  have := key _ _ _ _ _ h
  have hit : ∀ (i j : ℕ) (body : M Memo Mat) (m : Memo) (k : Mat), m i j = some k → cached i j body m = (.ok k, m) := by
    intro i j body m k h
    unfold cached
    rw [h]
  exact hit _ _ _ _ _ this

end IpMemo
end Verif

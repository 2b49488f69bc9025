import Verif.SosModel

/-!
# Region trees of `SOSModel` / `ExpSOSModel`
-/

namespace Verif
namespace Sos

namespace Tree

/-- No children. -/
def isLeaf : Tree → Prop
  | leaf _ => True
  | node _ _ _ => False

/-- A tree of regions: every inner node has at least two children, whose scopes are disjoint and make up the scope of the
node; no scope has repeated variables and no leaf is empty. -/
def Ok : Tree → Prop
  | leaf s => s ≠ [] ∧ s.Nodup
  | node s n cs => 2 ≤ n ∧ s.Nodup ∧ (∀ i, Ok (cs i)) ∧
      (∀ i j, i ≠ j → ∀ v ∈ (cs i).scope, v ∉ (cs j).scope) ∧ ∀ v, v ∈ s ↔ ∃ i, v ∈ (cs i).scope

/-- The scopes of all leaves satisfy `P`. -/
def Leaves (P : List ℕ → Prop) : Tree → Prop
  | leaf s => P s
  | node _ _ cs => ∀ i, Leaves P (cs i)

/-- Some inner node has both a leaf and an inner node as children. -/
def Mixed : Tree → Prop
  | leaf _ => False
  | node _ _ cs => (∃ i j, (cs i).isLeaf ∧ ¬ (cs j).isLeaf) ∨ ∃ i, Mixed (cs i)

theorem Leaves.mono {P Q : List ℕ → Prop} (h : ∀ s, P s → Q s) : ∀ {t : Tree}, Leaves P t → Leaves Q t
  | leaf s, ht => h s ht
  | node _ _ _, ht => fun i => (ht i).mono h

end Tree

open Tree

/-! ## Random binary trees and linear trees -/

theorem randBin_scope (shuf : List ℕ → List ℕ) (k : ℕ) (l : List ℕ) : (randBin shuf k l).scope = l := by
  cases k with
  | zero => rfl
  | succ k =>
    unfold randBin
    dsimp only
    split_ifs <;> rfl

theorem randBin_ok {shuf : List ℕ → List ℕ} (hs : ∀ l, (shuf l).Perm l) : ∀ (k : ℕ) (l : List ℕ), l.length ≤ k → l ≠ [] →
    l.Nodup → (randBin shuf k l).Ok ∧ (randBin shuf k l).Leaves (fun s => ∃ v, s = [v])
  | 0, l, h, h0, _ => absurd (List.length_eq_zero_iff.1 (by omega)) h0
  | k + 1, l, h, h0, hn => by
    have hpos := List.length_pos_iff.2 h0
    unfold randBin
    by_cases h1 : l.length ≤ 1
    · rw [if_pos h1]
      exact ⟨⟨h0, hn⟩, List.length_eq_one_iff.1 (by omega)⟩
    rw [if_neg h1]
    obtain ⟨p, hp⟩ : ∃ p, p = shuf l := ⟨_, rfl⟩
    have pp : p.Perm l := hp ▸ hs l
    have pl : p.length = l.length := pp.length_eq
    have pn : p.Nodup := pp.nodup_iff.2 hn
    simp only [← hp]
    have hl : (p.take (p.length / 2)).length = p.length / 2 := by rw [List.length_take]; omega
    have hr : (p.drop (p.length / 2)).length = p.length - p.length / 2 := List.length_drop
    have e1 : p.take (p.length / 2) ≠ [] := fun e => by rw [e] at hl; simp at hl; omega
    have e2 : p.drop (p.length / 2) ≠ [] := fun e => by rw [e] at hr; simp at hr; omega
    rw [if_neg (by tauto)]
    have hd : List.Disjoint (p.take (p.length / 2)) (p.drop (p.length / 2)) := by
      have := pn
      rw [← List.take_append_drop (p.length / 2) p] at this
      exact List.disjoint_of_nodup_append this
    have i1 := randBin_ok hs k _ (by omega) e1 (pn.sublist (List.take_sublist _ _))
    have i2 := randBin_ok hs k _ (by omega) e2 (pn.sublist (List.drop_sublist _ _))
    refine ⟨⟨le_rfl, hn, ?_, ?_, ?_⟩, ?_⟩
    · intro i
      fin_cases i
      · exact i1.1
      · exact i2.1
    · intro i j hij v hv hv'
      fin_cases i <;> fin_cases j
      · exact hij rfl
      · exact hd (by simpa [randBin_scope] using hv) (by simpa [randBin_scope] using hv')
      · exact hd (by simpa [randBin_scope] using hv') (by simpa [randBin_scope] using hv)
      · exact hij rfl
    · intro v
      rw [← pp.mem_iff, ← List.take_append_drop (p.length / 2) p, List.mem_append, List.take_append_drop]
      simp [Fin.exists_fin_two, randBin_scope]
    · intro i
      fin_cases i
      · exact i1.2
      · exact i2.2

theorem randBin_isLeaf {shuf : List ℕ → List ℕ} (hs : ∀ l, (shuf l).Perm l) (k : ℕ) (l : List ℕ) (h : l.length ≤ k) :
    (randBin shuf k l).isLeaf ↔ l.length ≤ 1 := by
  cases k with
  | zero => simp only [randBin, Tree.isLeaf, true_iff]; omega
  | succ k =>
    unfold randBin
    by_cases h1 : l.length ≤ 1
    · rw [if_pos h1]; simp [Tree.isLeaf, h1]
    · rw [if_neg h1]
      have pl := (hs l).length_eq
      dsimp only
      rw [if_neg]
      · simp [Tree.isLeaf, h1]
      · rintro (e | e)
        · have := congrArg List.length e
          rw [List.length_take, List.length_nil] at this
          omega
        · have := congrArg List.length e
          rw [List.length_drop, List.length_nil] at this
          omega

theorem two_pow_half {n : ℕ} (hn : 2 ≤ n) :
    (∃ m, n = 2 ^ m) ↔ (∃ m, n / 2 = 2 ^ m) ∧ (∃ m, n - n / 2 = 2 ^ m) ∧ n ≠ 3 := by
  constructor
  · rintro ⟨m, rfl⟩
    cases m with
    | zero => simp at hn
    | succ m =>
      rw [pow_succ]
      refine ⟨⟨m, by omega⟩, ⟨m, by omega⟩, by omega⟩
  · rintro ⟨⟨a, ha⟩, ⟨b, hb⟩, h3⟩
    have hab : n / 2 = n - n / 2 := by
      by_contra hne
      have hc : n - n / 2 = n / 2 + 1 := by omega
      rw [hb, ha] at hc
      cases b with
      | zero => have := Nat.one_le_two_pow (n := a); simp at hc
      | succ b =>
        cases a with
        | zero => rw [pow_zero] at ha; omega
        | succ a => rw [pow_succ, pow_succ] at hc; omega
    exact ⟨a + 1, by rw [pow_succ, ← ha]; omega⟩

theorem randBin_mixed {shuf : List ℕ → List ℕ} (hs : ∀ l, (shuf l).Perm l) : ∀ (k : ℕ) (l : List ℕ), l.length ≤ k → l ≠ [] →
    ((randBin shuf k l).Mixed ↔ ¬ ∃ m, l.length = 2 ^ m)
  | 0, l, h, h0 => absurd (List.length_eq_zero_iff.1 (by omega)) h0
  | k + 1, l, h, h0 => by
    have hpos := List.length_pos_iff.2 h0
    unfold randBin
    by_cases h1 : l.length ≤ 1
    · rw [if_pos h1]
      simp only [Tree.Mixed, false_iff, not_not]
      exact ⟨0, by simp; omega⟩
    rw [if_neg h1]
    obtain ⟨p, hp⟩ : ∃ p, p = shuf l := ⟨_, rfl⟩
    have pl : p.length = l.length := hp ▸ (hs l).length_eq
    simp only [← hp]
    have hl : (p.take (p.length / 2)).length = p.length / 2 := by rw [List.length_take]; omega
    have hr : (p.drop (p.length / 2)).length = p.length - p.length / 2 := List.length_drop
    have e1 : p.take (p.length / 2) ≠ [] := fun e => by rw [e] at hl; simp at hl; omega
    have e2 : p.drop (p.length / 2) ≠ [] := fun e => by rw [e] at hr; simp at hr; omega
    rw [if_neg (by tauto)]
    have i1 := randBin_mixed hs k _ (by omega) e1
    have i2 := randBin_mixed hs k _ (by omega) e2
    have l1 := randBin_isLeaf hs k (p.take (p.length / 2)) (by omega)
    have l2 := randBin_isLeaf hs k (p.drop (p.length / 2)) (by omega)
    rw [hl] at i1 l1
    rw [hr] at i2 l2
    rw [two_pow_half (by omega)]
    simp only [Tree.Mixed, Fin.exists_fin_two, Matrix.cons_val_zero, Matrix.cons_val_one, i1, i2, l1, l2]
    rw [pl]
    constructor
    · rintro (((h | h) | (h | h)) | (h | h))
      · omega
      · rintro ⟨-, -, h3⟩; omega
      · omega
      · omega
      · exact fun h' => h h'.1
      · exact fun h' => h h'.2.1
    · intro hh
      by_cases ha : ∃ m, l.length / 2 = 2 ^ m
      · by_cases hb : ∃ m, l.length - l.length / 2 = 2 ^ m
        · have h3 : l.length = 3 := by
            by_contra h3
            exact hh ⟨ha, hb, h3⟩
          left; left; right
          omega
        · exact Or.inr (Or.inr hb)
      · exact Or.inr (Or.inl ha)

theorem linear_scope : ∀ l : List ℕ, (linear l).scope = l
  | [] => rfl
  | [_] => rfl
  | _ :: _ :: _ => rfl

theorem linear_ok : ∀ l : List ℕ, l ≠ [] → l.Nodup → (linear l).Ok ∧ (linear l).Leaves (fun s => ∃ v, s = [v])
  | [], h, _ => absurd rfl h
  | [a], _, h => ⟨⟨by simp, h⟩, a, rfl⟩
  | a :: b :: l, _, h => by
    obtain ⟨i1, i2⟩ := linear_ok (b :: l) (by simp) (List.nodup_cons.1 h).2
    have hs := linear_scope (b :: l)
    refine ⟨⟨le_rfl, h, ?_, ?_, ?_⟩, ?_⟩
    · intro i
      fin_cases i
      · exact ⟨by simp, by simp⟩
      · exact i1
    · have hab := (List.nodup_cons.1 h).1
      intro i j hij v hv hv'
      fin_cases i <;> fin_cases j
      · exact hij rfl
      · have : v = a := by simpa [Tree.scope] using hv
        subst this
        exact hab (by simpa [hs] using hv')
      · have : v = a := by simpa [Tree.scope] using hv'
        subst this
        exact hab (by simpa [hs] using hv)
      · exact hij rfl
    · intro v
      rw [Fin.exists_fin_two]
      change v ∈ a :: b :: l ↔ v ∈ [a] ∨ v ∈ (linear (b :: l)).scope
      rw [hs]
      simp
    · intro i
      fin_cases i
      · exact ⟨a, rfl⟩
      · exact i2

theorem linear_mixed : ∀ l : List ℕ, (linear l).Mixed ↔ 3 ≤ l.length
  | [] => by simp [linear, Tree.Mixed]
  | [_] => by simp [linear, Tree.Mixed]
  | [a, b] => by simp [linear, Tree.Mixed, Tree.isLeaf, Fin.exists_fin_two]
  | a :: b :: c :: l => by
    simp only [linear, Tree.Mixed, Tree.isLeaf, List.length_cons]
    constructor
    · intro _; omega
    · intro _
      exact Or.inl ⟨0, 1, trivial, fun h => h⟩

/-! ## Quadtrees -/

/-- The pixel in row `y` and column `x` lies in the patch. -/
def Patch.Has (p : Patch) (y x : ℕ) : Prop := p.y0 ≤ y ∧ y < p.y1 ∧ p.x0 ≤ x ∧ x < p.x1

theorem mem_pixels {c h w : ℕ} {p : Patch} {v : ℕ} :
    v ∈ pixels c h w p ↔ ∃ ch < c, ∃ y x, p.Has y x ∧ v = ch * (h * w) + y * w + x := by
  simp only [pixels, List.mem_flatMap, List.mem_range, List.mem_map, List.mem_range'_1, Patch.Has]
  constructor
  · rintro ⟨ch, hc, y, hy, x, hx, rfl⟩
    exact ⟨ch, hc, y, x, ⟨hy.1, by omega, hx.1, by omega⟩, rfl⟩
  · rintro ⟨ch, hc, y, x, ⟨h1, h2, h3, h4⟩, rfl⟩
    exact ⟨ch, hc, y, ⟨h1, by omega⟩, x, ⟨h3, by omega⟩, rfl⟩

theorem pixel_lt {h w y x : ℕ} (hy : y < h) (hx : x < w) : y * w + x < h * w := by
  have : (y + 1) * w ≤ h * w := Nat.mul_le_mul_right _ hy
  rw [Nat.add_mul, Nat.one_mul] at this
  omega

theorem pixels_sorted {c h w : ℕ} {p : Patch} (h1 : p.y1 ≤ h) (h2 : p.x1 ≤ w) : (pixels c h w p).Pairwise (· < ·) := by
  unfold pixels
  rw [List.pairwise_flatMap]
  constructor
  · intro ch _
    rw [List.pairwise_flatMap]
    constructor
    · intro y _
      rw [List.pairwise_map]
      exact (List.pairwise_lt_range' (s := p.x0) (n := p.x1 - p.x0) (step := 1) (by omega)).imp fun h => by omega
    · refine (List.pairwise_lt_range' (s := p.y0) (n := p.y1 - p.y0) (step := 1) (by omega)).imp ?_
      intro y y' hyy a ha b hb
      simp only [List.mem_map, List.mem_range'_1] at ha hb
      obtain ⟨x, hx, rfl⟩ := ha
      obtain ⟨x', hx', rfl⟩ := hb
      have := pixel_lt (h := y') (w := w) hyy (show x < w by omega)
      omega
  · refine List.pairwise_lt_range.imp ?_
    intro ch ch' hcc a ha b hb
    simp only [List.mem_flatMap, List.mem_map, List.mem_range'_1] at ha hb
    obtain ⟨y, hy, x, hx, rfl⟩ := ha
    obtain ⟨y', -, x', -, rfl⟩ := hb
    have e1 := pixel_lt (show y < h by omega) (show x < w by omega)
    have e2 : (ch + 1) * (h * w) ≤ ch' * (h * w) := Nat.mul_le_mul_right _ hcc
    rw [Nat.add_mul, Nat.one_mul] at e2
    omega

theorem pixel_inj {h w ch y x ch' y' x' : ℕ} (hy : y < h) (hx : x < w) (hy' : y' < h) (hx' : x' < w)
    (e : ch * (h * w) + y * w + x = ch' * (h * w) + y' * w + x') : ch = ch' ∧ y = y' ∧ x = x' := by
  have key : ∀ {a b n r s : ℕ}, r < n → s < n → a * n + r = b * n + s → a = b ∧ r = s := by
    intro a b n r s hr hs e
    have h1 := congrArg (· / n) e
    have h2 := congrArg (· % n) e
    simp only [Nat.add_comm (_ * n), Nat.add_mul_div_right _ _ (show 0 < n by omega), Nat.div_eq_of_lt hr,
      Nat.div_eq_of_lt hs, Nat.add_mul_mod_self_right, Nat.mod_eq_of_lt hr, Nat.mod_eq_of_lt hs] at h1 h2
    omega
  obtain ⟨h1, h2⟩ := key (pixel_lt hy hx) (pixel_lt hy' hx') (by omega : ch * (h * w) + (y * w + x) = ch' * (h * w) + (y' * w + x'))
  obtain ⟨h3, h4⟩ := key hx hx' h2
  exact ⟨h1, h3, h4⟩

/-- A patch with at least one pixel. -/
def Patch.Pos (p : Patch) : Prop := p.y0 < p.y1 ∧ p.x0 < p.x1

theorem mem_kept {s : ℕ} {p q : Patch} : q ∈ kept s p ↔ q ∈ bounds s p ∧ q.Pos := by
  simp only [kept, List.mem_filter, decide_eq_true_eq, Patch.Pos, not_or, not_le]

theorem bounds_has (s : ℕ) {p : Patch} (hp : p.Pos) (h1 : ¬ (p.y1 - p.y0 ≤ 1 ∧ p.x1 - p.x0 ≤ 1)) (y x : ℕ) :
    p.Has y x ↔ ∃ q ∈ bounds s p, q.Has y x := by
  obtain ⟨ha, hb⟩ := hp
  unfold bounds
  dsimp only
  split_ifs with c1 c2 c3
  · simp only [List.mem_cons, List.not_mem_nil, or_false, exists_eq_or_imp, exists_eq_left, Patch.Has]; omega
  · simp only [List.mem_cons, List.not_mem_nil, or_false, exists_eq_or_imp, exists_eq_left, Patch.Has]; omega
  · omega
  · simp only [List.mem_cons, List.not_mem_nil, or_false, exists_eq_or_imp, exists_eq_left, Patch.Has]; omega

theorem bounds_disjoint (s : ℕ) (p : Patch) :
    (bounds s p).Pairwise fun a b => ∀ y x, ¬ (a.Has y x ∧ b.Has y x) := by
  unfold bounds
  dsimp only
  split_ifs with c1 c2 c3
  · simp [Patch.Has]; omega
  · simp [Patch.Has]; omega
  · simp
  · simp only [List.pairwise_cons, List.mem_cons, List.not_mem_nil, or_false, forall_eq_or_imp, forall_eq, Patch.Has,
      false_imp_iff, implies_true, List.Pairwise.nil, and_true]
    refine ⟨⟨?_, ?_, ?_⟩, ⟨?_, ?_⟩, ?_⟩ <;> intros <;> omega

theorem bounds_sub {s : ℕ} {p q : Patch} (hq : q ∈ bounds s p) (hp : p.Pos) (hq' : q.Pos)
    (h1 : ¬ (p.y1 - p.y0 ≤ 1 ∧ p.x1 - p.x0 ≤ 1)) :
    p.y0 ≤ q.y0 ∧ p.x0 ≤ q.x0 ∧ q.y1 ≤ p.y1 ∧ q.x1 ≤ p.x1 ∧ (q.y1 - q.y0) + (q.x1 - q.x0) < (p.y1 - p.y0) + (p.x1 - p.x0) := by
  obtain ⟨ha, hb⟩ := hp
  obtain ⟨hc, hd⟩ := hq'
  unfold bounds at hq
  dsimp only at hq
  split_ifs at hq with c1 c2 c3
  · simp only [List.mem_cons, List.not_mem_nil, or_false] at hq
    rcases hq with rfl | rfl <;> dsimp only at * <;> omega
  · simp only [List.mem_cons, List.not_mem_nil, or_false] at hq
    rcases hq with rfl | rfl <;> dsimp only at * <;> omega
  · simp at hq
  · simp only [List.mem_cons, List.not_mem_nil, or_false] at hq
    rcases hq with rfl | rfl | rfl | rfl <;> dsimp only at * <;> omega

theorem kept_two (s : ℕ) {p : Patch} (hp : p.Pos) (h1 : ¬ (p.y1 - p.y0 ≤ 1 ∧ p.x1 - p.x0 ≤ 1)) :
    2 ≤ (kept s p).length := by
  obtain ⟨ha, hb⟩ := hp
  by_contra hlt
  -- two pixels that no single child patch contains
  have key : ∀ y x y' x', p.Has y x → p.Has y' x' → (∀ q ∈ bounds s p, ¬ (q.Has y x ∧ q.Has y' x')) → False := by
    intro y x y' x' e e' hno
    obtain ⟨q, hq, hqx⟩ := (bounds_has s ⟨ha, hb⟩ h1 y x).1 e
    obtain ⟨q', hq', hqx'⟩ := (bounds_has s ⟨ha, hb⟩ h1 y' x').1 e'
    have hk : q ∈ kept s p := mem_kept.2 ⟨hq, by obtain ⟨_, _, _, _⟩ := hqx; exact ⟨by omega, by omega⟩⟩
    have hk' : q' ∈ kept s p := mem_kept.2 ⟨hq', by obtain ⟨_, _, _, _⟩ := hqx'; exact ⟨by omega, by omega⟩⟩
    have : q = q' := by
      match hl : kept s p with
      | [] => rw [hl] at hk; simp at hk
      | [a] => rw [hl] at hk hk'; simp at hk hk'; rw [hk, hk']
      | _ :: _ :: _ => rw [hl] at hlt; simp at hlt
    exact hno q hq ⟨hqx, this ▸ hqx'⟩
  refine key p.y0 p.x0 (p.y1 - 1) (p.x1 - 1) ⟨by omega, by omega, by omega, by omega⟩
    ⟨by omega, by omega, by omega, by omega⟩ ?_
  intro q hq
  unfold bounds at hq
  dsimp only at hq
  split_ifs at hq with c1 c2 c3
  · simp only [List.mem_cons, List.not_mem_nil, or_false] at hq
    rcases hq with rfl | rfl <;> simp only [Patch.Has] <;> omega
  · simp only [List.mem_cons, List.not_mem_nil, or_false] at hq
    rcases hq with rfl | rfl <;> simp only [Patch.Has] <;> omega
  · simp at hq
  · simp only [List.mem_cons, List.not_mem_nil, or_false] at hq
    rcases hq with rfl | rfl | rfl | rfl <;> simp only [Patch.Has] <;> omega

theorem quad_scope (c h w s k : ℕ) (p : Patch) : (quad c h w s k p).scope = pixels c h w p := by
  cases k with
  | zero => rfl
  | succ k =>
    unfold quad
    dsimp only
    split_ifs <;> rfl

/-- All channels of one pixel. -/
def column (c h w y x : ℕ) : List ℕ := (List.range c).map fun ch => ch * (h * w) + y * w + x

theorem quad_ok {c h w s : ℕ} (hc : 0 < c) : ∀ (k : ℕ) (p : Patch), (p.y1 - p.y0) + (p.x1 - p.x0) ≤ k → p.Pos →
    p.y1 ≤ h → p.x1 ≤ w → (quad c h w s k p).Ok ∧
      (quad c h w s k p).Leaves (fun l => ∃ y < h, ∃ x < w, l = column c h w y x)
  | 0, p, hk, hp, _, _ => by have := hp.1; have := hp.2; omega
  | k + 1, p, hk, hp, hy, hx => by
    have hne : ∀ {q : Patch}, q.Pos → pixels c h w q ≠ [] := by
      intro q hq e
      have : 0 * (h * w) + q.y0 * w + q.x0 ∈ pixels c h w q :=
        mem_pixels.2 ⟨0, hc, q.y0, q.x0, ⟨le_rfl, hq.1, le_rfl, hq.2⟩, rfl⟩
      rw [e] at this
      simp at this
    have hnd : (pixels c h w p).Nodup := (pixels_sorted hy hx).imp fun h => h.ne
    unfold quad
    by_cases h1 : p.y1 - p.y0 ≤ 1 ∧ p.x1 - p.x0 ≤ 1
    · rw [if_pos h1]
      refine ⟨⟨hne hp, hnd⟩, p.y0, lt_of_lt_of_le hp.1 hy, p.x0, lt_of_lt_of_le hp.2 hx, ?_⟩
      have e1 : p.y1 - p.y0 = 1 := by have := hp.1; omega
      have e2 : p.x1 - p.x0 = 1 := by have := hp.2; omega
      simp only [pixels, column, e1, e2, List.range'_one, List.flatMap_cons, List.flatMap_nil, List.map_cons, List.map_nil,
        List.append_nil]
      exact List.map_eq_flatMap.symm
    rw [if_neg h1]
    dsimp only
    have h2 := kept_two s hp h1
    rw [if_neg (by omega)]
    have hm : ∀ i : Fin (kept s p).length, (kept s p).get i ∈ bounds s p ∧ ((kept s p).get i).Pos :=
      fun i => mem_kept.1 (List.get_mem _ i)
    have hs : ∀ i : Fin (kept s p).length, _ := fun i => bounds_sub (hm i).1 hp (hm i).2 h1
    have ih : ∀ i : Fin (kept s p).length, _ := fun i => quad_ok (s := s) hc k ((kept s p).get i)
      (by have := (hs i).2.2.2.2; omega) (hm i).2 ((hs i).2.2.1.trans hy) ((hs i).2.2.2.1.trans hx)
    refine ⟨⟨h2, hnd, fun i => (ih i).1, ?_, ?_⟩, fun i => (ih i).2⟩
    · intro i j hij v hv hv'
      rw [quad_scope, mem_pixels] at hv hv'
      obtain ⟨ch, _, y, x, hyx, rfl⟩ := hv
      obtain ⟨ch', _, y', x', hyx', e⟩ := hv'
      have b1 := hs i
      have b2 := hs j
      have d := hyx
      have d' := hyx'
      obtain ⟨d1, d2, d3, d4⟩ := d
      obtain ⟨d5, d6, d7, d8⟩ := d'
      obtain ⟨-, rfl, rfl⟩ := pixel_inj (by omega) (by omega) (by omega) (by omega) e
      have hpw := (bounds_disjoint s p).filter (fun q => decide (¬ (q.y1 ≤ q.y0 ∨ q.x1 ≤ q.x0)))
      rw [List.pairwise_iff_getElem] at hpw
      rcases lt_or_gt_of_ne (Fin.val_ne_of_ne hij) with hlt | hlt
      · exact hpw i j i.2 j.2 hlt y x ⟨hyx, hyx'⟩
      · exact hpw j i j.2 i.2 hlt y x ⟨hyx', hyx⟩
    · intro v
      simp only [quad_scope, mem_pixels]
      constructor
      · rintro ⟨ch, hch, y, x, hyx, rfl⟩
        obtain ⟨q, hq, hqx⟩ := (bounds_has s hp h1 y x).1 hyx
        have hk : q ∈ kept s p := mem_kept.2 ⟨hq, by obtain ⟨_, _, _, _⟩ := hqx; exact ⟨by omega, by omega⟩⟩
        obtain ⟨i, hi⟩ := List.get_of_mem hk
        exact ⟨i, ch, hch, y, x, hi ▸ hqx, rfl⟩
      · rintro ⟨i, ch, hch, y, x, hyx, rfl⟩
        exact ⟨ch, hch, y, x, (bounds_has s hp h1 y x).2 ⟨_, (hm i).1, hyx⟩, rfl⟩

theorem quad_isLeaf {c h w s k : ℕ} {p : Patch} (hk : (p.y1 - p.y0) + (p.x1 - p.x0) ≤ k) (hp : p.Pos) :
    (quad c h w s k p).isLeaf ↔ p.y1 - p.y0 = 1 ∧ p.x1 - p.x0 = 1 := by
  have := hp.1
  have := hp.2
  cases k with
  | zero => omega
  | succ k =>
    unfold quad
    by_cases h1 : p.y1 - p.y0 ≤ 1 ∧ p.x1 - p.x0 ≤ 1
    · rw [if_pos h1]
      simp only [Tree.isLeaf, true_iff]
      omega
    · rw [if_neg h1]
      dsimp only
      rw [if_neg (by have := kept_two s hp h1; omega)]
      simp only [Tree.isLeaf, false_iff]
      omega

/-- Child patches of a patch whose sides are powers of two all have the same sides, again powers of two. -/
theorem kept_uniform {s : ℕ} {p : Patch} {a b : ℕ} (hy : p.y1 - p.y0 = 2 ^ a) (hx : p.x1 - p.x0 = 2 ^ b) :
    ∃ a' b', ∀ q ∈ kept s p, q.y1 - q.y0 = 2 ^ a' ∧ q.x1 - q.x0 = 2 ^ b' := by
  have half : ∀ n, ∃ m, (2 ^ n = 1 ∧ m = 0 ∧ n = 0) ∨ (2 ^ n / 2 = 2 ^ m ∧ 2 ^ n - 2 ^ n / 2 = 2 ^ m ∧ 1 < 2 ^ n) := by
    intro n
    cases n with
    | zero => exact ⟨0, Or.inl ⟨rfl, rfl, rfl⟩⟩
    | succ n =>
      have := Nat.one_le_two_pow (n := n)
      exact ⟨n, Or.inr (by rw [pow_succ]; omega)⟩
  obtain ⟨a', ha⟩ := half a
  obtain ⟨b', hb⟩ := half b
  have pa := Nat.one_le_two_pow (n := a)
  have pb := Nat.one_le_two_pow (n := b)
  by_cases hs : s = 2
  · by_cases c1 : 2 ^ b ≤ 2 ^ a ∧ 1 < 2 ^ a
    · refine ⟨a', b, fun q hq => ?_⟩
      obtain ⟨hq, hpos⟩ := mem_kept.1 hq
      unfold bounds at hq
      dsimp only at hq
      rw [if_pos hs, hy, hx, if_pos c1] at hq
      simp only [List.mem_cons, List.not_mem_nil, or_false] at hq
      rcases hq with rfl | rfl <;> dsimp only at * <;> omega
    · refine ⟨a, b', fun q hq => ?_⟩
      obtain ⟨hq, hpos⟩ := mem_kept.1 hq
      unfold bounds at hq
      dsimp only at hq
      rw [if_pos hs, hy, hx, if_neg c1] at hq
      split_ifs at hq with c2
      · simp only [List.mem_cons, List.not_mem_nil, or_false] at hq
        rcases hq with rfl | rfl <;> dsimp only at * <;> omega
      · simp at hq
  · refine ⟨a', b', fun q hq => ?_⟩
    obtain ⟨hq, hpos⟩ := mem_kept.1 hq
    unfold bounds at hq
    dsimp only at hq
    rw [if_neg hs, hy, hx] at hq
    have p0 := hpos.1
    have p1 := hpos.2
    have z0 : 2 ^ 0 = 1 := rfl
    simp only [List.mem_cons, List.not_mem_nil, or_false] at hq
    rcases ha with ⟨ha1, rfl, rfl⟩ | ha <;> rcases hb with ⟨hb1, rfl, rfl⟩ | hb <;>
      rcases hq with rfl | rfl | rfl | rfl <;> dsimp only at * <;> omega

theorem quad_not_mixed {c h w s : ℕ} : ∀ (k : ℕ) (p : Patch) (a b : ℕ), (p.y1 - p.y0) + (p.x1 - p.x0) ≤ k → p.Pos →
    p.y1 - p.y0 = 2 ^ a → p.x1 - p.x0 = 2 ^ b → ¬ (quad c h w s k p).Mixed
  | 0, _, _, _, _, _, _, _ => fun h => h
  | k + 1, p, a, b, hk, hp, ha, hb => by
    unfold quad
    dsimp only
    split_ifs with h1 h2
    · exact fun h => h
    · exact fun h => h
    · have hm : ∀ i : Fin (kept s p).length, (kept s p).get i ∈ bounds s p ∧ ((kept s p).get i).Pos :=
        fun i => mem_kept.1 (List.get_mem _ i)
      have hs : ∀ i : Fin (kept s p).length, _ := fun i => bounds_sub (hm i).1 hp (hm i).2 h1
      obtain ⟨a', b', hu⟩ := kept_uniform (s := s) ha hb
      have hl : ∀ i : Fin (kept s p).length, _ := fun i =>
        quad_isLeaf (c := c) (h := h) (w := w) (s := s) (k := k) (p := (kept s p).get i)
          (by have := (hs i).2.2.2.2; omega) (hm i).2
      rintro (⟨i, j, e1, e2⟩ | ⟨i, hi⟩)
      · apply e2
        rw [hl] at e1 ⊢
        rw [(hu _ (List.get_mem _ i)).1, (hu _ (List.get_mem _ i)).2] at e1
        rw [(hu _ (List.get_mem _ j)).1, (hu _ (List.get_mem _ j)).2]
        exact e1
      · exact quad_not_mixed k _ a' b' (by have := (hs i).2.2.2.2; omega) (hm i).2 (hu _ (List.get_mem _ i)).1
          (hu _ (List.get_mem _ i)).2 hi

/-! ## All region graphs -/

theorem mem_image {c h w v : ℕ} : v ∈ pixels c h w ⟨0, h, 0, w⟩ ↔ v < c * h * w := by
  rw [mem_pixels, Nat.mul_assoc]
  constructor
  · rintro ⟨ch, hch, y, x, ⟨-, hy, -, hx⟩, rfl⟩
    have := pixel_lt (show y < h from hy) (show x < w from hx)
    have e2 : (ch + 1) * (h * w) ≤ c * (h * w) := Nat.mul_le_mul_right _ hch
    rw [Nat.add_mul, Nat.one_mul] at e2
    omega
  · intro hv
    have hpos : 0 < h * w := by
      rcases Nat.eq_zero_or_pos (h * w) with e | e
      · rw [e] at hv; simp at hv
      · exact e
    have hw : 0 < w := Nat.pos_of_ne_zero (fun e => by rw [e] at hpos; simp at hpos)
    refine ⟨v / (h * w), Nat.div_lt_of_lt_mul (by rwa [Nat.mul_comm]), v % (h * w) / w, v % (h * w) % w,
      ⟨Nat.zero_le _, Nat.div_lt_of_lt_mul ?_, Nat.zero_le _, Nat.mod_lt _ hw⟩, ?_⟩
    · rw [Nat.mul_comm w h]; exact Nat.mod_lt _ hpos
    · have e1 := Nat.div_add_mod v (h * w)
      have e2 := Nat.div_add_mod (v % (h * w)) w
      rw [Nat.mul_comm] at e1 e2
      omega

/-- What the scope of a leaf can be: one variable, or all channels of one pixel of the image. -/
def LeafScope (image : Option (ℕ × ℕ × ℕ)) (s : List ℕ) : Prop :=
  (∃ v, s = [v]) ∨ ∃ c h w y x, image = some (c, h, w) ∧ y < h ∧ x < w ∧ s = column c h w y x

/-- An image shape that `_validate_model_common` accepts for `n` variables. -/
def ImageOk (image : Option (ℕ × ℕ × ℕ)) (n : ℕ) : Prop :=
  ∀ c h w, image = some (c, h, w) → 0 < c ∧ 0 < h ∧ 0 < w ∧ c * h * w = n

/-- **C78 (region trees).** Whatever the generator shuffles: the tree is a decomposition of the variables `0 … n-1` into
disjoint parts down to single variables (binary and linear trees) or to all channels of single pixels (quadtrees). -/
theorem C78_trees {rng : ℤ → List ℕ → List ℕ} (hs : ∀ s l, (rng s l).Perm l) {region : String} {n : ℕ}
    {image : Option (ℕ × ℕ × ℕ)} {seed : ℤ} {t : Tree} (hn : 0 < n) (hi : ImageOk image n)
    (h : buildTree rng region n image seed = .ok t) :
    t.Ok ∧ (∀ v, v ∈ t.scope ↔ v < n) ∧ t.Leaves (LeafScope image) := by
  have hne : List.range n ≠ [] := by
    intro e
    have := congrArg List.length e
    simp at this
    omega
  unfold buildTree at h
  generalize (if region = "qt-2" then 2 else 4) = sp at h
  split_ifs at h with h1 h2 h3 h4
  · cases h
    obtain ⟨e1, e2⟩ := randBin_ok (hs seed) n (List.range n) (by simp) hne List.nodup_range
    exact ⟨e1, by simp [randBin_scope], e2.mono fun s => Or.inl⟩
  · cases h
    have hp := hs seed (List.range n)
    obtain ⟨e1, e2⟩ := linear_ok (rng seed (List.range n)) (fun e => hne (List.perm_nil.1 (e ▸ hp.symm)))
      (hp.nodup_iff.2 List.nodup_range)
    exact ⟨e1, fun v => by rw [linear_scope, hp.mem_iff, List.mem_range], e2.mono fun s => Or.inl⟩
  · cases h
    obtain ⟨e1, e2⟩ := linear_ok (List.range n) hne List.nodup_range
    exact ⟨e1, by simp [linear_scope], e2.mono fun s => Or.inl⟩
  · match image, hi, h with
    | none, _, h => cases h
    | some (c, h', w), hi, h =>
      cases h
      obtain ⟨hc, hh, hw, hcn⟩ := hi c h' w rfl
      obtain ⟨e1, e2⟩ := quad_ok (h := h') (w := w) (s := sp) hc (h' + w) ⟨0, h', 0, w⟩ (by simp)
        ⟨hh, hw⟩ le_rfl le_rfl
      refine ⟨e1, fun v => by rw [quad_scope, mem_image, hcn], e2.mono ?_⟩
      rintro s ⟨y, hy, x, hx, rfl⟩
      exact Or.inr ⟨c, h', w, y, x, rfl, hy, hx, rfl⟩

/-- **C78 (which region graphs).** A tree is built exactly for the six documented names, quadtrees only with an image
shape; every other call raises `InvalidParameterError`. -/
theorem C78_regions (rng : ℤ → List ℕ → List ℕ) (region : String) (n : ℕ) (image : Option (ℕ × ℕ × ℕ)) (seed : ℤ) :
    ((∃ t, buildTree rng region n image seed = .ok t) ↔ region ∈ ["rnd-bt", "rnd-lt", "lt"] ∨
      region ∈ ["qt", "qt-2", "qt-4"] ∧ image ≠ none) ∧
    ∀ e, buildTree rng region n image seed = .error e → e = .invalidParameter := by
  unfold buildTree
  generalize (if region = "qt-2" then 2 else 4) = sp
  split_ifs with h1 h2 h3 h4
  · simp [h1]
  · simp [h2]
  · simp [h3]
  · have : ¬ (region = "rnd-bt" ∨ region = "rnd-lt" ∨ region = "lt") := by tauto
    cases image with
    | none => simp [h1, h2, h3]
    | some s => simp [h1, h2, h3]; tauto
  · simp [h1, h2, h3]
    tauto

/-- **C78 (mixed levels).** In a linear tree some inner node has both a leaf and an inner child as soon as there are
three variables. -/
theorem C78_linear_mixed {rng : ℤ → List ℕ → List ℕ} (hs : ∀ s l, (rng s l).Perm l) {region : String} {n : ℕ}
    {image : Option (ℕ × ℕ × ℕ)} {seed : ℤ} {t : Tree} (hr : region = "lt" ∨ region = "rnd-lt")
    (h : buildTree rng region n image seed = .ok t) : t.Mixed ↔ 3 ≤ n := by
  unfold buildTree at h
  rcases hr with rfl | rfl
  · rw [if_neg (by decide), if_neg (by decide), if_pos rfl] at h
    cases h
    simp [linear_mixed]
  · rw [if_neg (by decide), if_pos rfl] at h
    cases h
    rw [linear_mixed, (hs seed _).length_eq, List.length_range]

/-- **C78 (mixed levels).** In a random binary tree this happens exactly if the number of variables is not a power of
two. -/
theorem C78_binary_mixed {rng : ℤ → List ℕ → List ℕ} (hs : ∀ s l, (rng s l).Perm l) {n : ℕ}
    {image : Option (ℕ × ℕ × ℕ)} {seed : ℤ} {t : Tree} (hn : 0 < n)
    (h : buildTree rng "rnd-bt" n image seed = .ok t) : t.Mixed ↔ ¬ ∃ m, n = 2 ^ m := by
  unfold buildTree at h
  rw [if_pos rfl] at h
  cases h
  have := randBin_mixed (hs seed) n (List.range n) (by simp) (by
    intro e
    have := congrArg List.length e
    simp at this
    omega)
  simpa using this

/-- **C78 (mixed levels).** In a quadtree it never happens if height and width are powers of two. -/
theorem C78_quad_not_mixed {rng : ℤ → List ℕ → List ℕ} {region : String} {n c a b : ℕ}
    {seed : ℤ} {t : Tree} (hr : region ∈ ["qt", "qt-2", "qt-4"])
    (h : buildTree rng region n (some (c, 2 ^ a, 2 ^ b)) seed = .ok t) : ¬ t.Mixed := by
  have key : ∀ s, ¬ (quad c (2 ^ a) (2 ^ b) s (2 ^ a + 2 ^ b) ⟨0, 2 ^ a, 0, 2 ^ b⟩).Mixed := fun s =>
    quad_not_mixed _ _ a b (by simp) ⟨by simp, by simp⟩ (by simp) (by simp)
  unfold buildTree at h
  simp only [List.mem_cons, List.not_mem_nil, or_false] at hr
  rcases hr with rfl | rfl | rfl
  · rw [if_neg (by decide), if_neg (by decide), if_neg (by decide), if_pos (by decide)] at h; cases h; exact key _
  · rw [if_neg (by decide), if_neg (by decide), if_neg (by decide), if_pos (by decide)] at h; cases h; exact key _
  · rw [if_neg (by decide), if_neg (by decide), if_neg (by decide), if_pos (by decide)] at h; cases h; exact key _

end Sos
end Verif

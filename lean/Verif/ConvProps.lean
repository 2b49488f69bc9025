import Verif.Conv
import Mathlib.Tactic.Ring
import Mathlib.Algebra.BigOperators.Intervals
import Mathlib.Data.Nat.Sqrt

/-!
# C43: which pixels a ProdConv multiplies, reports and samples
-/

namespace Verif.Conv

open Finset

namespace ProdConv

/-- The specification of a patch: pixel `f` of the (row-major, `H` x `H`) image lies, after padding, in the `kh` x `kw`
block of output `o` (row-major, `ow` columns). -/
def InPatch (P : ProdConv) (o f : ℕ) : Prop :=
  (o / P.ow * P.kh ≤ f / P.H + P.ph ∧ f / P.H + P.ph < o / P.ow * P.kh + P.kh) ∧
    o % P.ow * P.kw ≤ f % P.H + P.pw ∧ f % P.H + P.pw < o % P.ow * P.kw + P.kw

instance (P : ProdConv) (o f : ℕ) : Decidable (P.InPatch o f) := by unfold InPatch; infer_instance

/-- The output whose block contains pixel `f`, if the blocks reach that far. -/
def owner (P : ProdConv) (f : ℕ) : ℕ := (f / P.H + P.ph) / P.kh * P.ow + (f % P.H + P.pw) / P.kw

/-- The blocks of the outputs cover pixel `f`. -/
def Covered (P : ProdConv) (f : ℕ) : Prop := (f / P.H + P.ph) / P.kh < P.oh ∧ (f % P.H + P.pw) / P.kw < P.ow

/-- The kernel sizes are positive (constructor check). -/
def Valid (P : ProdConv) : Prop := 1 ≤ P.kh ∧ 1 ≤ P.kw

instance (P : ProdConv) : Decidable (Valid P) := by unfold Valid; infer_instance

end ProdConv

theorem block_iff {s k i : ℕ} (hk : 1 ≤ k) : (s * k ≤ i ∧ i < s * k + k) ↔ i / k = s := by
  rw [Nat.div_eq_iff (by omega)]
  constructor
  · rintro ⟨h1, h2⟩; omega
  · rintro ⟨h1, h2⟩; omega

theorem sum_pad {M : Type*} [AddCommMonoid M] (G : ℕ → M) (H p s k : ℕ) :
    ∑ a ∈ range k, (if p ≤ s + a ∧ s + a < p + H then G (s + a - p) else 0) =
      ∑ i ∈ range H, if s ≤ i + p ∧ i + p < s + k then G i else 0 := by
  rw [← sum_filter, ← sum_filter]
  refine sum_nbij' (fun a => s + a - p) (fun i => i + p - s) ?_ ?_ ?_ ?_ ?_
  · intro a ha; simp only [mem_filter, mem_range] at ha ⊢; omega
  · intro a ha; simp only [mem_filter, mem_range] at ha ⊢; omega
  · intro a ha; simp only [mem_filter, mem_range] at ha ⊢; omega
  · intro a ha; simp only [mem_filter, mem_range] at ha ⊢; omega
  · intro a _; rfl

theorem sum_range_mul' {M : Type*} [AddCommMonoid M] (g : ℕ → M) (m n : ℕ) :
    ∑ f ∈ range (m * n), g f = ∑ i ∈ range m, ∑ j ∈ range n, g (i * n + j) := by
  induction m with
  | zero => simp
  | succ m ih => rw [Nat.succ_mul, sum_range_add, ih, sum_range_succ]

theorem div_row {i j H : ℕ} (hj : j < H) : (i * H + j) / H = i := by
  rw [Nat.mul_comm, Nat.mul_add_div (by omega), Nat.div_eq_of_lt hj, add_zero]

theorem mod_row {i j H : ℕ} (hj : j < H) : (i * H + j) % H = j := by
  rw [Nat.mul_comm, Nat.mul_add_mod, Nat.mod_eq_of_lt hj]

namespace ProdConv

variable {P : ProdConv}

theorem inPatch_iff (hv : P.Valid) {o : ℕ} (f : ℕ) :
    P.InPatch o f ↔ P.Covered f ∧ o = P.owner f ∨ (f / P.H + P.ph) / P.kh = o / P.ow ∧ (f % P.H + P.pw) / P.kw = o % P.ow := by
  unfold InPatch
  rw [block_iff hv.1, block_iff hv.2]
  constructor
  · exact fun h => .inr h
  · rintro (⟨⟨h1, h2⟩, rfl⟩ | h)
    · unfold owner
      rw [div_row h2, mod_row h2]
      exact ⟨rfl, rfl⟩
    · exact h

/-- The output `o` has pixel `f` in its block iff `o` is the owner of `f`. -/
theorem inPatch_owner (hv : P.Valid) {o : ℕ} (ho : o < P.outF) (f : ℕ) :
    P.InPatch o f ↔ P.Covered f ∧ o = P.owner f := by
  have how : 0 < P.ow := by
    rcases Nat.eq_zero_or_pos P.ow with h | h
    · unfold outF at ho; rw [h] at ho; omega
    · exact h
  rw [inPatch_iff hv]
  constructor
  · rintro (h | ⟨h1, h2⟩)
    · exact h
    · have hr : o % P.ow < P.ow := Nat.mod_lt _ how
      have hd : o / P.ow < P.oh := Nat.div_lt_of_lt_mul (by unfold outF at ho; rw [mul_comm]; exact ho)
      refine ⟨⟨by omega, by omega⟩, ?_⟩
      unfold owner
      rw [h1, h2]
      exact (Nat.div_add_mod' o P.ow).symm
  · exact fun h => .inl h

theorem owner_lt {f : ℕ} (h : P.Covered f) : P.owner f < P.outF := by
  unfold owner outF
  calc _ < (f / P.H + P.ph) / P.kh * P.ow + P.ow := by have := h.2; omega
    _ = ((f / P.H + P.ph) / P.kh + 1) * P.ow := by ring
    _ ≤ P.oh * P.ow := Nat.mul_le_mul_right _ h.1

/-- C43, likelihood: every output of `log_likelihood` is the product (sum of logs) of exactly the input pixels in its
block, and raises exactly when the kernel does not fit into the padded image. -/
theorem C43_likelihood (P : ProdConv) (ll : Tens) :
    (∀ T, P.logLik ll = .ok T → ∀ o ch r, T o ch r = ∑ f ∈ (range P.inF).filter (P.InPatch o), ll f ch r) ∧
      ((∃ T, P.logLik ll = .ok T) ↔ P.kh ≤ P.H + 2 * P.ph ∧ P.kw ≤ P.H + 2 * P.pw) := by
  unfold logLik
  constructor
  · intro T hT o ch r
    split at hT
    · cases hT
    cases hT
    have hin : ∀ a, ∑ b ∈ range P.kw, P.padded ll (o / P.ow * P.kh + a) (o % P.ow * P.kw + b) ch r =
        if P.ph ≤ o / P.ow * P.kh + a ∧ o / P.ow * P.kh + a < P.ph + P.H then
          (fun i => ∑ j ∈ range P.H, if o % P.ow * P.kw ≤ j + P.pw ∧ j + P.pw < o % P.ow * P.kw + P.kw then
            ll (i * P.H + j) ch r else 0) (o / P.ow * P.kh + a - P.ph) else 0 := by
      intro a
      split_ifs with h
      · beta_reduce
        rw [← sum_pad (fun j => ll ((o / P.ow * P.kh + a - P.ph) * P.H + j) ch r)]
        refine sum_congr rfl fun b _ => ?_
        unfold padded
        by_cases h2 : P.pw ≤ o % P.ow * P.kw + b ∧ o % P.ow * P.kw + b < P.pw + P.H
        · rw [if_pos ⟨h.1, h.2, h2.1, h2.2⟩, if_pos h2]
        · rw [if_neg (fun h' => h2 h'.2.2), if_neg h2]
      · refine sum_eq_zero fun b _ => ?_
        unfold padded
        rw [if_neg fun h' => h ⟨h'.1, h'.2.1⟩]
    beta_reduce
    rw [sum_congr rfl fun a _ => hin a,
      sum_pad (fun i => ∑ j ∈ range P.H, if o % P.ow * P.kw ≤ j + P.pw ∧ j + P.pw < o % P.ow * P.kw + P.kw then
        ll (i * P.H + j) ch r else 0), sum_filter]
    unfold inF
    rw [sum_range_mul']
    refine sum_congr rfl fun i hi => ?_
    split_ifs with h
    · refine sum_congr rfl fun j hj => ?_
      have hj' := mem_range.1 hj
      refine if_congr ?_ rfl rfl
      unfold InPatch
      rw [div_row hj', mod_row hj']
      exact ⟨fun h' => ⟨h, h'⟩, fun h' => h'.2⟩
    · symm
      refine sum_eq_zero fun j hj => if_neg ?_
      have hj' := mem_range.1 hj
      unfold InPatch
      rw [div_row hj', mod_row hj']
      exact fun h' => h h'.1
  · split_ifs with h
    · exact ⟨fun ⟨_, h'⟩ => (by cases h'), fun h' => by omega⟩
    · exact ⟨fun _ => by omega, fun _ => ⟨_, rfl⟩⟩

theorem mem_patch1 {H k p o i : ℕ} : i ∈ patch1 H k p o ↔ i < H ∧ o * k ≤ i + p ∧ i + p < o * k + k := by
  unfold patch1
  rw [List.mem_filter, List.mem_range, Bool.and_eq_true, decide_eq_true_eq, decide_eq_true_eq]
  have e : (o : ℤ) * k = ((o * k : ℕ) : ℤ) := by push_cast; rfl
  rw [e]
  generalize o * k = m
  omega

theorem mem_foldr_union {A : List ℕ} {g : ℕ → Finset Var} {S : Finset Var} {v : Var} :
    v ∈ A.foldr (fun i S => g i ∪ S) S ↔ (∃ i ∈ A, v ∈ g i) ∨ v ∈ S := by
  induction A with
  | nil => simp
  | cons a A ih => simp only [List.foldr_cons, mem_union, ih, List.mem_cons, exists_eq_or_imp, or_assoc]

/-- C43, scopes: `feature_to_scope` reports for an output exactly the variables of the pixels in its block. -/
theorem C43_scope (P : ProdConv) (s : ℕ → Finset Var) (o : ℕ) (v : Var) :
    v ∈ P.scopeAt s o ↔ ∃ f < P.inF, P.InPatch o f ∧ v ∈ s f := by
  have key : ∀ A : List ℕ, v ∈ A.foldr (fun ih S =>
      (patch1 P.H P.kw P.pw (o % P.ow)).foldr (fun iw S => s (ih * P.H + iw) ∪ S) S) ∅ ↔
      ∃ i ∈ A, ∃ j ∈ patch1 P.H P.kw P.pw (o % P.ow), v ∈ s (i * P.H + j) := by
    intro A
    induction A with
    | nil => simp
    | cons a A ih =>
      rw [List.foldr_cons, mem_foldr_union, ih]
      simp only [List.mem_cons, exists_eq_or_imp]
  unfold scopeAt
  rw [key]
  constructor
  · rintro ⟨i, hi, j, hj, hv⟩
    obtain ⟨hi1, hi2⟩ := mem_patch1.1 hi
    obtain ⟨hj1, hj2⟩ := mem_patch1.1 hj
    refine ⟨i * P.H + j, ?_, ?_, hv⟩
    · unfold inF
      calc i * P.H + j < i * P.H + P.H := by omega
        _ = (i + 1) * P.H := by ring
        _ ≤ P.H * P.H := Nat.mul_le_mul_right _ hi1
    · unfold InPatch
      rw [div_row hj1, mod_row hj1]
      exact ⟨hi2, hj2⟩
  · rintro ⟨f, hf, ⟨h1, h2⟩, hv⟩
    have hH : 0 < P.H := by
      rcases Nat.eq_zero_or_pos P.H with h | h
      · unfold inF at hf; rw [h] at hf; omega
      · exact h
    refine ⟨f / P.H, mem_patch1.2 ⟨Nat.div_lt_of_lt_mul hf, h1⟩, f % P.H, mem_patch1.2 ⟨Nat.mod_lt _ hH, h2⟩, ?_⟩
    rwa [Nat.div_add_mod']

theorem cover1 {H k p i : ℕ} (hk : 1 ≤ k) : (i + p) / k < (H + 2 * p) / k ↔ i + p < (H + 2 * p) / k * k :=
  Nat.div_lt_iff_lt_mul (by omega)

/-- C43: no pixel is multiplied into two outputs, and all pixels are used iff the part of the padded image that does not
fill a whole block is not larger than the padding: `(H + 2p) mod k ≤ p` on both axes. -/
theorem C43_each_pixel_once (hv : P.Valid) :
    (∀ f o o', o < P.outF → o' < P.outF → P.InPatch o f → P.InPatch o' f → o = o') ∧
      (0 < P.H → ((∀ f < P.inF, ∃! o, o < P.outF ∧ P.InPatch o f) ↔
        (P.H + 2 * P.ph) % P.kh ≤ P.ph ∧ (P.H + 2 * P.pw) % P.kw ≤ P.pw)) := by
  refine ⟨fun f o o' ho ho' h h' => ?_, fun hH => ?_⟩
  · rw [((inPatch_owner hv ho f).1 h).2, ((inPatch_owner hv ho' f).1 h').2]
  have hex : ∀ f, (∃! o, o < P.outF ∧ P.InPatch o f) ↔ P.Covered f := by
    intro f
    constructor
    · rintro ⟨o, ⟨ho, h⟩, -⟩; exact ((inPatch_owner hv ho f).1 h).1
    · intro h
      refine ⟨P.owner f, ⟨owner_lt h, (inPatch_owner hv (owner_lt h) f).2 ⟨h, rfl⟩⟩, ?_⟩
      rintro o ⟨ho, h'⟩
      exact ((inPatch_owner hv ho f).1 h').2
  have hlast : ∀ {k p : ℕ}, 1 ≤ k → ((∀ i < P.H, (i + p) / k < (P.H + 2 * p) / k) ↔ (P.H + 2 * p) % k ≤ p) := by
    intro k p hk
    have hdm := Nat.div_add_mod' (P.H + 2 * p) k
    constructor
    · intro h
      have := (cover1 hk).1 (h (P.H - 1) (by omega))
      omega
    · intro h i hi
      refine (cover1 hk).2 ?_
      omega
  rw [← hlast hv.1, ← hlast hv.2]
  constructor
  · intro h
    refine ⟨fun i hi => ?_, fun i hi => ?_⟩
    · have hf : i * P.H < P.inF := by
        unfold inF; exact Nat.mul_lt_mul_of_pos_right hi hH
      have := ((hex _).1 (h _ hf)).1
      rwa [Nat.mul_div_cancel _ hH] at this
    · have hf : i < P.inF := by
        unfold inF; nlinarith
      have := ((hex _).1 (h _ hf)).2
      rwa [Nat.mod_eq_of_lt hi] at this
  · rintro ⟨h1, h2⟩ f hf
    rw [hex]
    exact ⟨h1 _ (Nat.div_lt_of_lt_mul hf), h2 _ (Nat.mod_lt _ hH)⟩

/-! ### Sampling -/

/-- The context `g'` handed to the input gives every pixel the entry of the output that contains it. -/
def Routes {α : Type} (P : ProdConv) (g g' : ℕ → α) : Prop :=
  ∀ f < P.inF, ∀ o < P.outF, P.InPatch o f → g' f = g o

/-- C43, sampling without padding: if the kernel divides the image, every pixel gets the channel (and mask) of the output
that contains it - for every context. -/
theorem C43_routing_unpadded_partial {α : Type} (hv : P.Valid) (hp : P.ph = 0 ∧ P.pw = 0) (hd : P.kh ∣ P.H ∧ P.kw ∣ P.H)
    (g : ℕ → α) : ∃ g', P.route g = .ok g' ∧ P.Routes g g' := by
  obtain ⟨hp1, hp2⟩ := hp
  have e1 : P.oh * P.kh = P.H := by unfold oh; rw [hp1]; simpa using Nat.div_mul_cancel hd.1
  have e2 : P.ow * P.kw = P.H := by unfold ow; rw [hp2]; simpa using Nat.div_mul_cancel hd.2
  have hup : ∀ f o, o < P.outF → P.InPatch o f → P.upsample g f = g o := by
    intro f o ho h
    obtain ⟨hc, ho'⟩ := (inPatch_owner hv ho f).1 h
    unfold upsample
    rw [e2, ho']
    unfold owner
    rw [hp1, hp2]
    rfl
  unfold route
  by_cases heq : P.outF = P.inF
  · rw [if_pos heq]
    refine ⟨g, rfl, fun f hf o ho h => ?_⟩
    -- equal counts force a 1 x 1 kernel
    have h1 : P.oh ≤ P.H := by rw [← e1]; exact Nat.le_mul_of_pos_right _ hv.1
    have h2 : P.ow ≤ P.H := by rw [← e2]; exact Nat.le_mul_of_pos_right _ hv.2
    have hH : 0 < P.H := by
      rcases Nat.eq_zero_or_pos P.H with h | h
      · unfold inF at hf; rw [h] at hf; omega
      · exact h
    unfold outF inF at heq
    have h3 : P.oh = P.H := by
      by_contra hne
      have : P.oh < P.H := by omega
      have : P.oh * P.ow < P.H * P.H := by
        calc P.oh * P.ow ≤ P.oh * P.H := Nat.mul_le_mul_left _ h2
          _ < P.H * P.H := Nat.mul_lt_mul_of_pos_right this hH
      omega
    have h4 : P.ow = P.H := by
      rw [h3] at heq
      exact Nat.eq_of_mul_eq_mul_left hH heq
    have k1 : P.kh = 1 := by
      rw [h3] at e1
      exact Nat.eq_of_mul_eq_mul_left hH (by omega)
    have k2 : P.kw = 1 := by
      rw [h4] at e2
      exact Nat.eq_of_mul_eq_mul_left hH (by omega)
    obtain ⟨hc, ho'⟩ := (inPatch_owner hv ho f).1 h
    rw [ho']
    unfold owner
    rw [hp1, hp2, k1, k2, h4, add_zero, add_zero, Nat.div_one, Nat.div_one, Nat.div_add_mod']
  · rw [if_neg heq]
    simp only
    rw [e1, e2]
    unfold inF
    rw [if_neg (lt_irrefl _), if_neg (lt_irrefl _)]
    exact ⟨_, rfl, fun f hf o ho h => hup f o ho h⟩

/-- C43, sampling without padding: if the kernel does not divide the image, sampling raises ShapeError (although
log_likelihood works, ignoring the pixels that are left over). -/
theorem C43_indivisible_raises {α : Type} (hv : P.Valid) (hp : P.ph = 0 ∧ P.pw = 0) (hd : ¬ (P.kh ∣ P.H ∧ P.kw ∣ P.H))
    (g : ℕ → α) : P.route g = .error .shapeError := by
  obtain ⟨hp1, hp2⟩ := hp
  have hH : 0 < P.H := by
    rcases Nat.eq_zero_or_pos P.H with h | h
    · exact absurd ⟨h ▸ dvd_zero _, h ▸ dvd_zero _⟩ hd
    · exact h
  have l1 : P.oh * P.kh ≤ P.H := by unfold oh; rw [hp1]; simpa using Nat.div_mul_le_self P.H P.kh
  have l2 : P.ow * P.kw ≤ P.H := by unfold ow; rw [hp2]; simpa using Nat.div_mul_le_self P.H P.kw
  have d1 : P.oh * P.kh = P.H → P.kh ∣ P.H := fun h => ⟨P.oh, by rw [mul_comm]; exact h.symm⟩
  have d2 : P.ow * P.kw = P.H → P.kw ∣ P.H := fun h => ⟨P.ow, by rw [mul_comm]; exact h.symm⟩
  have hlt : P.oh * P.kh * (P.ow * P.kw) < P.inF := by
    unfold inF
    by_cases h1 : P.oh * P.kh = P.H
    · have h2 : P.ow * P.kw ≠ P.H := fun h2 => hd ⟨d1 h1, d2 h2⟩
      rw [h1]
      exact Nat.mul_lt_mul_of_pos_left (by omega) hH
    · calc _ ≤ P.oh * P.kh * P.H := Nat.mul_le_mul_left _ l2
        _ < P.H * P.H := Nat.mul_lt_mul_of_pos_right (by omega) hH
  have hne : P.outF ≠ P.inF := by
    have : P.outF ≤ P.oh * P.kh * (P.ow * P.kw) := by
      unfold outF
      exact Nat.mul_le_mul (Nat.le_mul_of_pos_right _ hv.1) (Nat.le_mul_of_pos_right _ hv.2)
    omega
  unfold route
  rw [if_neg hne]
  simp only
  rw [if_neg (by omega), if_pos hlt]

/-- C43 is FALSE with padding: whenever a square image of at least 2 x 2 pixels is padded to an exact multiple of the kernel
(more than one block per axis), sampling returns without error but hands some pixel the channel of an output that does not
contain it: the code keeps the first `H * H` entries of the padded grid instead of its centre. -/
theorem C43_padding_misroutes {H k p : ℕ} (hH : 2 ≤ H) (hk : 1 ≤ k) (hp : 1 ≤ p) (hd : k ∣ H + 2 * p) (hm : k < H + 2 * p)
    (hne : (ProdConv.mk H k k p p).outF ≠ (ProdConv.mk H k k p p).inF) :
    ∃ g', (ProdConv.mk H k k p p).route (fun o => o) = .ok g' ∧ ¬ (ProdConv.mk H k k p p).Routes (fun o => o) g' := by
  set P := ProdConv.mk H k k p p with hP
  have hv : P.Valid := ⟨hk, hk⟩
  obtain ⟨m, hmk⟩ := hd
  have how : P.ow = m := by
    show (H + 2 * p) / k = m
    rw [hmk]; exact Nat.mul_div_cancel_left _ hk
  have hoh : P.oh = m := how
  have hm2 : 2 ≤ m := by
    by_contra hcon
    have : m ≤ 1 := by omega
    have : k * m ≤ k * 1 := Nat.mul_le_mul_left _ this
    omega
  have hN : m * k = H + 2 * p := by rw [hmk, mul_comm]
  have hroute : P.route (fun o => o) = .ok (P.upsample fun o => o) := by
    unfold route
    rw [if_neg hne]
    simp only
    rw [hoh, how]
    show (if H * H < m * k * (m * k) then _ else _) = _
    rw [hN, if_pos (show H * H < (H + 2 * p) * (H + 2 * p) by nlinarith), if_neg (show ¬ (p = 0 ∧ p = 0) by omega),
      if_neg (show ¬ ((H + 2 * p) * (H + 2 * p) ≠ (H + 2 * p) * (H + 2 * p)) by simp)]
  refine ⟨_, hroute, fun hR => ?_⟩
  have hcov : ∀ f < P.inF, P.Covered f := by
    intro f hf
    have hf' : f < H * H := hf
    have a1 : f / H < H := Nat.div_lt_of_lt_mul hf'
    have a2 : f % H < H := Nat.mod_lt _ (by omega)
    constructor
    · show (f / H + p) / k < P.oh
      rw [hoh, Nat.div_lt_iff_lt_mul hk]; omega
    · show (f % H + p) / k < P.ow
      rw [how, Nat.div_lt_iff_lt_mul hk]; omega
  have hval : ∀ f < H * H, f / (m * k) / k * m + f % (m * k) / k = (f / H + p) / k * m + (f % H + p) / k := by
    intro f hf
    have hc := hcov f hf
    have := hR f hf _ (owner_lt hc) ((inPatch_owner hv (owner_lt hc) f).2 ⟨hc, rfl⟩)
    unfold upsample owner at this
    rw [how] at this
    exact this
  -- pixel (1, 0)
  have h1 := hval H (by nlinarith)
  rw [Nat.div_eq_of_lt (by omega : H < m * k), Nat.mod_eq_of_lt (by omega : H < m * k), Nat.div_self (by omega),
    Nat.mod_self, Nat.zero_div, zero_mul, zero_add, zero_add] at h1
  have hHk : H / k < m := by rw [Nat.div_lt_iff_lt_mul hk]; omega
  have hz : (1 + p) / k = 0 := by
    by_contra hcon
    have : 1 * m ≤ (1 + p) / k * m := Nat.mul_le_mul_right _ (Nat.one_le_iff_ne_zero.2 hcon)
    rw [one_mul] at this
    exact absurd (h1 ▸ hHk) (not_lt.2 (this.trans (Nat.le_add_right _ _)))
  have hpk : 1 + p < k := by
    by_contra hcon
    have := Nat.div_pos (by omega : k ≤ 1 + p) hk
    omega
  rw [hz, zero_mul, zero_add, Nat.div_eq_of_lt (by omega : p < k)] at h1
  have hHk' : H < k := by
    by_contra hcon
    have := Nat.div_pos (by omega : k ≤ H) hk
    omega
  have hm3 : m = 2 := by
    by_contra hcon
    have : 3 * k ≤ m * k := Nat.mul_le_mul_right _ (by omega)
    omega
  subst hm3
  -- the last pixel
  have hlast : H * H - 1 = (H - 1) * H + (H - 1) := by
    obtain ⟨a, rfl⟩ : ∃ a, H = a + 1 := ⟨H - 1, by omega⟩
    simp only [Nat.add_sub_cancel]
    have : (a + 1) * (a + 1) = a * (a + 1) + a + 1 := by ring
    omega
  have h2 := hval (H * H - 1) (by have : 0 < H * H := by positivity
                                  omega)
  have hq : (H * H - 1) / (2 * k) < k := by
    refine lt_of_lt_of_le ?_ hHk'.le
    refine Nat.div_lt_of_lt_mul ?_
    have : H * H ≤ 2 * k * H := Nat.mul_le_mul_right _ (by omega)
    have : 0 < H * H := by positivity
    omega
  rw [Nat.div_eq_of_lt hq, zero_mul, zero_add, hlast, div_row (by omega), ← hlast] at h2
  have hr : 1 ≤ (H - 1 + p) / k := (Nat.one_le_div_iff hk).2 (by omega)
  have hr2 : 1 * 2 ≤ (H - 1 + p) / k * 2 := Nat.mul_le_mul_right _ hr
  have hcol : (H * H - 1) % (2 * k) / k < 2 := Nat.div_lt_of_lt_mul (by
    have := Nat.mod_lt (H * H - 1) (by omega : 0 < 2 * k)
    omega)
  rw [h2] at hcol
  exact absurd hcol (not_lt.2 (hr2.trans (Nat.le_add_right _ _)))

/-- Witness: a 4 x 4 image, kernel 3, padding 1 (padded 6 x 6, outputs 2 x 2) meets the hypotheses; pixel (1, 1) belongs to
output 0 but gets the channel of output 1. -/
example : (ProdConv.mk 4 3 3 1 1).outF ≠ (ProdConv.mk 4 3 3 1 1).inF ∧ 3 ∣ 4 + 2 * 1 ∧
    (ProdConv.mk 4 3 3 1 1).InPatch 0 5 ∧ (ProdConv.mk 4 3 3 1 1).upsample (fun o => o) 5 = 1 := by decide

/-- Witness for the positive theorems: 6 x 6 image, kernel 3 x 2, no padding. -/
example : (ProdConv.mk 6 3 2 0 0).Valid ∧ 3 ∣ 6 ∧ 2 ∣ 6 ∧ (ProdConv.mk 6 3 2 0 0).outF = 6 ∧
    (ProdConv.mk 6 3 2 0 0).InPatch 4 21 ∧ (6 + 2 * 0) % 3 ≤ 0 := by decide

end ProdConv

end Verif.Conv

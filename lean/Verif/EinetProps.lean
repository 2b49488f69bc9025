import Verif.RatSound
import Verif.Einet

/-!
C68: Einet, end to end
-/

open MeasureTheory

namespace Verif.Rat

open Finset Verif.Circ
open Verif.Prog hiding bind

variable {μ : Var → Measure ℝ}

/-! ### Specification -/

/-- The documented restrictions on the arguments of `Einet`. -/
structure EValid (a : EArgs) : Prop where
  classes : 1 ≤ a.classes
  sums : 1 ≤ a.sums
  leaves : 1 ≤ a.leaves
  depth : 0 ≤ a.depth
  reps : 1 ≤ a.R
  layer : a.layer ≠ .other
  struct : a.struct ≠ .other

/-- The depth of the Factorize layer: `depth` top-down, all the way bottom-up. -/
def factDepth (leaves : List Circ) (a : EArgs) : ℕ := if a.struct = .topDown then a.depth.toNat else Nat.log 2 (width leaves)

/-- What the leaves and the random draws of `Einet.__init__` satisfy: leaves as described by `Leaves`, whose number of
repetitions is that of the model or one; the group sizes are shuffled, the variables permuted in every repetition; the
logits are finite. -/
structure ESetup (μ : Var → Measure ℝ) (leaves : List Circ) (a : EArgs) (C Rl : ℕ) (d : Draws) : Prop where
  leafOk : Leaves μ leaves C Rl
  chans : 1 ≤ C
  leafReps : Rl = a.R ∨ Rl = 1
  sizes : d.sizes.Perm (Fact.groupSizes (width leaves) (2 ^ factDepth leaves a))
  perms : ∀ r < a.R, (d.perms r).Perm (List.range (width leaves))
  finE : ∀ k f co r i j, d.We k f co r i j ≠ ⊥
  finL : ∀ k f co r c, d.Wl k f co r c ≠ ⊥
  fin0 : ∀ f ci co r, d.W0 f ci co r ≠ ⊥
  finC : ∀ f ci co r, d.Wc f ci co r ≠ ⊥
  finMix : ∀ ch r, d.wmix ch r ≠ ⊥
  finRoot : ∀ ch, d.wroot ch ≠ ⊥

/-! ### What is built -/

variable {leaves : List Circ} {a : EArgs} {C Rl : ℕ} {d : Draws}

/-- `m` has been built on top of `n`: `k` layers with a last one of `top` channels. -/
structure EBuilt (μ : Var → Measure ℝ) (D k top : ℕ) (n m : Net) : Prop where
  good : m.Good μ
  feats : m.F = 2 ^ (D - k)
  reps : m.R = n.R
  chans : m.C = if k = 0 then n.C else top
  leaf : m.leafOf = n.leafOf
  depth : m.depthOf = n.depthOf
  samp : n.Samp → m.Samp
  wide : n.Wide → m.Wide
  allF : 1 ≤ k → m.allF
  allC : 1 ≤ k → m.allC

theorem eLayers_ok (hE : ∀ k f co r i j, d.We k f co r i j ≠ ⊥) (hL : ∀ k f co r c, d.Wl k f co r c ≠ ⊥) {l : Layer} {top mid : ℕ}
    (ht : 1 ≤ top) (hm : 1 ≤ mid) : ∀ (k D : ℕ) (n : Net), k ≤ D → n.Good μ → n.F = 2 ^ D →
      ∃ m, eLayers l top mid d k n = .ok m ∧ EBuilt μ D k top n m := by
  intro k
  induction k with
  | zero => exact fun D n _ hn hF => ⟨n, rfl, hn, hF, rfl, rfl, rfl, rfl, id, id, by omega, by omega⟩
  | succ k ih =>
    intro D n hk hn hF
    obtain ⟨D, rfl⟩ : ∃ D', D = D' + 1 := ⟨D - 1, by omega⟩
    have he : 2 ∣ n.F ∧ 2 ≤ n.F := by
      rw [hF, pow_succ]
      have := Nat.one_le_two_pow (n := D)
      exact ⟨Dvd.intro_left _ rfl, by omega⟩
    have hdiv : n.F / 2 = 2 ^ D := by rw [hF, pow_succ]; exact Nat.mul_div_cancel _ (by omega)
    set Co := if k = 0 then top else mid with hCo
    have hCo1 : 1 ≤ Co := by rw [hCo]; split_ifs <;> assumption
    have hC := Net.posC hn
    have hadd : ∃ p : Net, addLayer l Co d k n = .ok p ∧ p.Good μ ∧ p.F = n.F / 2 ∧ p.R = n.R ∧ p.C = Co ∧ p.leafOf = n.leafOf ∧
        p.depthOf = n.depthOf ∧ (n.Samp → p.Samp) ∧ (n.Wide → p.Wide) ∧ p.allF ∧ p.allC := by
      unfold addLayer
      rw [if_neg (show ¬ n.F < 2 by omega), if_neg (show ¬ n.F % 2 ≠ 0 by omega), if_neg (show ¬ Co < 1 by omega)]
      by_cases hl : l = .einsum
      · rw [if_pos hl]
        exact ⟨_, rfl, ⟨hn, he, hCo1, fun f _ co _ r _ => ⟨0, Nat.mul_pos hC hC, hE _ _ _ _ _ _⟩⟩, rfl, rfl, rfl, rfl, rfl, id, id, trivial, trivial⟩
      · rw [if_neg hl]
        exact ⟨_, rfl, ⟨hn, he, hCo1, fun f _ co _ r _ => ⟨0, hC, hL _ _ _ _ _⟩⟩, rfl, rfl, rfl, rfl, rfl, id, id, trivial, trivial⟩
    obtain ⟨p, hp, pg, pF, pR, pC, pl, pd, ps, pw, pf, pc⟩ := hadd
    obtain ⟨m, hm', hb⟩ := ih D p (by omega) pg (by rw [pF, hdiv])
    refine ⟨m, ?_, hb.good, by rw [hb.feats]; congr 1; omega, by rw [hb.reps, pR], ?_, by rw [hb.leaf, pl], by rw [hb.depth, pd],
      fun h => hb.samp (ps h), fun h => hb.wide (pw h), fun _ => ?_, fun _ => ?_⟩
    · show (addLayer l Co d k n >>= fun p => eLayers l top mid d k p) = _
      rw [hp]; exact hm'
    · rw [hb.chans, if_neg (show ¬ k + 1 = 0 by omega)]
      by_cases h0 : k = 0
      · rw [if_pos h0, pC, hCo, if_pos h0]
      · rw [if_neg h0]
    · rcases Nat.eq_zero_or_pos k with rfl | hd
      · cases hm'; exact pf
      · exact hb.allF hd
    · rcases Nat.eq_zero_or_pos k with rfl | hd
      · cases hm'; exact pc
      · exact hb.allC hd

/-- What `_finalize_root` needs of the network below. -/
structure Top (μ : Var → Measure ℝ) (leaves : List Circ) (R Rl D : ℕ) (n : Net) : Prop where
  good : n.Good μ
  pos : 1 ≤ n.F
  reps : n.R = R
  depth : n.depthOf = D
  wide : n.Wide
  allC : n.allC
  allF : n.allF ∨ 2 ≤ n.F ∨ D = 0
  vars : n.varsOf = scopeOf leaves
  alive : ∀ x, n.Alive x ↔ Possible leaves x
  samp : Rl = R → n.Samp

theorem finalize_spec {n : Net} {D : ℕ} {cl : Bool} (hv : EValid a) (h : ESetup μ leaves a C Rl d) (ht : Top μ leaves a.R Rl D n)
    (h1 : cl = true ∨ n.F = 1) : Facts μ leaves a.classes a.R Rl d.wroot (finalize a d cl n) ∧
      (finalize a d cl n).net.depthOf = D ∧ (finalize a d cl n).net.Wide ∧ (1 ≤ D → Poisons (finalize a d cl n)) := by
  set n1 : Net := if cl = true ∧ 1 < n.F then Net.collapse n else n with hn1
  have hpos := ht.pos
  have t1 : Top μ leaves a.R Rl D n1 ∧ n1.F = 1 ∧ (1 ≤ D → n1.allF) := by
    rw [hn1]
    by_cases hc : cl = true ∧ 1 < n.F
    · rw [if_pos hc]
      exact ⟨⟨ht.good, le_refl _, ht.reps, ht.depth, ⟨ht.wide, hc.2⟩, ht.allC, .inl trivial, ht.vars, ht.alive, ht.samp⟩, rfl, fun _ => trivial⟩
    · rw [if_neg hc]
      have hF : n.F = 1 := by
        rcases h1 with h1 | h1
        · have : ¬ 1 < n.F := fun h' => hc ⟨h1, h'⟩
          omega
        · exact h1
      refine ⟨ht, hF, fun hD => ?_⟩
      rcases ht.allF with h | h | h
      · exact h
      · omega
      · omega
  obtain ⟨t1, hF1, haF⟩ := t1
  set n2 : Net := if n1.C ≠ a.classes then Net.sum n1 a.classes d.Wc else n1 with hn2
  have t2 : Top μ leaves a.R Rl D n2 ∧ n2.F = 1 ∧ n2.C = a.classes ∧ (1 ≤ D → n2.allF) := by
    rw [hn2]
    by_cases hc : n1.C ≠ a.classes
    · rw [if_pos hc]
      exact ⟨⟨⟨t1.good, hv.classes, fun f _ co _ r _ => ⟨0, Net.posC t1.good, h.finC _ _ _ _⟩⟩, t1.pos, t1.reps, t1.depth, t1.wide, trivial,
        t1.allF, t1.vars, t1.alive, t1.samp⟩, hF1, rfl, haF⟩
    · rw [if_neg hc]
      exact ⟨t1, hF1, by simpa using hc, haF⟩
  obtain ⟨t2, hF2, hC2, haF2⟩ := t2
  have hfin : finalize a d cl n = ⟨n2, if 1 < a.R then some d.wmix else none, if 1 < a.classes then some d.wroot else none⟩ := rfl
  rw [hfin]
  have hR := hv.reps
  have hcl := hv.classes
  refine ⟨⟨⟨t2.good, hF2, by show 1 ≤ n2.R; rw [t2.reps]; exact hR, ?_, ?_, ?_, ?_⟩, hC2, t2.reps, rfl, t2.vars, t2.alive, t2.samp⟩, t2.depth, t2.wide,
    fun hD => ⟨t2.wide, by show 1 ≤ n2.depthOf; rw [t2.depth]; exact hD, haF2 hD, t2.allC⟩⟩
  · intro he
    show n2.R = 1
    rw [t2.reps]
    by_contra hne
    simp only [show 1 < a.R by omega, if_true] at he
    cases he
  · intro θ he ch _ r _
    simp only at he
    split_ifs at he
    cases he
    exact h.finMix ch r
  · intro he
    show n2.C = 1
    rw [hC2]
    by_contra hne
    simp only [show 1 < a.classes by omega, if_true] at he
    cases he
  · intro w he ch _
    simp only at he
    split_ifs at he
    cases he
    exact h.finRoot ch

theorem einet_spec (h : ESetup μ leaves a C Rl d) (hv : EValid a) :
    (width leaves < 2 ^ a.depth.toNat → buildEinet leaves a d = .error .invalidParameter) ∧
    (2 ^ a.depth.toNat ≤ width leaves → ∃ m, buildEinet leaves a d = .ok m ∧ Facts μ leaves a.classes a.R Rl d.wroot m ∧
      m.net.depthOf = factDepth leaves a ∧ m.net.Wide ∧ (1 ≤ factDepth leaves a → Poisons m)) := by
  obtain ⟨c0, hc0⟩ := h.leafOk.joined
  obtain ⟨s, hs, hlen⟩ := hc0.scopes
  have v1 := hv.classes
  have v2 := hv.sums
  have v3 := hv.leaves
  have v4 := hv.depth
  have v5 := hv.reps
  have key : buildEinet leaves a d = if width leaves < 2 ^ a.depth.toNat then .error .invalidParameter else
      if a.struct = .topDown then buildTopDown leaves a d else buildBottomUp leaves a d (width leaves) := by
    unfold buildEinet
    simp only [hs, hlen, bind, Except.bind, throw, throwThe, MonadExceptOf.throw]
    rw [if_neg (show ¬ a.classes < 1 by omega), if_neg (show ¬ a.sums < 1 by omega), if_neg (show ¬ a.leaves < 1 by omega),
      if_neg (show ¬ a.depth < 0 by omega), if_neg (show ¬ a.R < 1 by omega), if_neg hv.layer, if_neg hv.struct]
  rw [key]
  refine ⟨fun hlt => if_pos hlt, fun hle => ?_⟩
  rw [if_neg (by omega)]
  obtain ⟨f1, f2⟩ := addFact_spec h.leafOk h.chans v5 h.leafReps h.sizes h.perms
  have hw1 : 1 ≤ width leaves := le_trans Nat.one_le_two_pow hle
  have hDle : 2 ^ factDepth leaves a ≤ width leaves := by
    unfold factDepth
    split_ifs
    · exact hle
    · exact Nat.pow_log_le_self 2 (by omega)
  have hkD : a.depth.toNat ≤ factDepth leaves a := by
    unfold factDepth
    split_ifs
    · exact le_refl _
    · exact Nat.le_log_of_pow_le (by omega) hle
  obtain ⟨c, G, hf, hj, hg, hal, hsm⟩ := f2 hDle
  have htop : ∀ m : Net, m.Good μ → 1 ≤ m.F → m.R = a.R → m.depthOf = factDepth leaves a → m.Wide → m.allC →
      (m.allF ∨ 2 ≤ m.F ∨ factDepth leaves a = 0) → m.leafOf = c → (Rl = a.R → m.Samp) → Top μ leaves a.R Rl (factDepth leaves a) m := by
    intro m g p r dp w ac af lf sm
    refine ⟨g, p, r, dp, w, ac, af, ?_, fun x => ?_, sm⟩
    · ext v
      rw [Net.mem_varsOf, mem_scopeOf, lf]
      exact hj.mem v
    · have : m.Alive x ↔ (Net.fact c (factDepth leaves a) a.R G).Alive x := by
        rw [Net.alive_iff, Net.alive_iff, lf, r]; rfl
      exact this.trans (hal x)
  by_cases htd : a.struct = .topDown
  · rw [if_pos htd]
    have hD : factDepth leaves a = a.depth.toNat := by unfold factDepth; rw [if_pos htd]
    rw [hD] at hf hg hal hsm htop ⊢
    unfold buildTopDown
    simp only [hf, bind, Except.bind, pure, Except.pure]
    by_cases h0 : a.depth.toNat = 0
    · rw [if_pos h0]
      refine ⟨_, rfl, ?_⟩
      refine finalize_spec hv h (htop _ ⟨hg, v1, fun f _ co _ r _ => ⟨0, Net.posC hg, h.fin0 _ _ _ _⟩⟩ Nat.one_le_two_pow rfl rfl trivial trivial
        (.inr (.inr h0)) rfl hsm) (.inr ?_)
      show 2 ^ a.depth.toNat = 1
      rw [h0]; rfl
    · rw [if_neg h0]
      obtain ⟨m, hm, hb⟩ := eLayers_ok (μ := μ) h.finE h.finL (l := a.layer) v1 v2 a.depth.toNat a.depth.toNat _ (le_refl _) hg rfl
      rw [hm]
      refine ⟨_, rfl, ?_⟩
      have hF : m.F = 1 := by rw [hb.feats, Nat.sub_self, pow_zero]
      exact finalize_spec hv h (htop m hb.good (by omega) hb.reps hb.depth (hb.wide trivial) (hb.allC (by omega))
        (.inl (hb.allF (by omega))) hb.leaf fun e => hb.samp (hsm e)) (.inr hF)
  · rw [if_neg htd]
    have hD : factDepth leaves a = Nat.log 2 (width leaves) := by unfold factDepth; rw [if_neg htd]
    have hD' : (if 1 < width leaves then Nat.log 2 (width leaves) else 0) = factDepth leaves a := by
      rw [hD]
      split_ifs with h1
      · rfl
      · rw [show width leaves = 1 by omega]; rfl
    unfold buildBottomUp
    rw [hD']
    simp only [hf, bind, Except.bind, pure, Except.pure]
    obtain ⟨m, hm, hb⟩ := eLayers_ok (μ := μ) h.finE h.finL (l := a.layer) v2 v2 a.depth.toNat (factDepth leaves a) _ hkD hg rfl
    rw [hm]
    simp only
    by_cases h0 : a.depth.toNat = 0
    · rw [if_pos h0]
      refine ⟨_, rfl, ?_⟩
      refine finalize_spec hv h (htop _ ⟨hg, v2, fun f _ co _ r _ => ⟨0, Net.posC hg, h.fin0 _ _ _ _⟩⟩ Nat.one_le_two_pow rfl rfl trivial trivial
        ?_ rfl hsm) (.inl rfl)
      rcases Nat.eq_zero_or_pos (factDepth leaves a) with h' | h'
      · exact .inr (.inr h')
      · right; left
        show 2 ≤ 2 ^ factDepth leaves a
        calc 2 = 2 ^ 1 := rfl
          _ ≤ _ := Nat.pow_le_pow_right (by omega) h'
    · rw [if_neg h0]
      refine ⟨_, rfl, ?_⟩
      exact finalize_spec hv h (htop m hb.good (by rw [hb.feats]; exact Nat.one_le_two_pow) hb.reps hb.depth (hb.wide trivial) (hb.allC (by omega))
        (.inl (hb.allF (by omega))) hb.leaf fun e => hb.samp (hsm e)) (.inl rfl)

theorem efacts (h : ESetup μ leaves a C Rl d) (hv : EValid a) {m : Model} (hm : buildEinet leaves a d = .ok m) :
    Facts μ leaves a.classes a.R Rl d.wroot m ∧ m.net.depthOf = factDepth leaves a ∧ m.net.Wide ∧ (1 ≤ factDepth leaves a → Poisons m) := by
  obtain ⟨b1, b2⟩ := einet_spec h hv
  by_cases hlt : width leaves < 2 ^ a.depth.toNat
  · rw [b1 hlt] at hm; cases hm
  obtain ⟨m', hm', hf⟩ := b2 (by omega)
  rw [hm'] at hm
  cases hm
  exact hf

/-! ### Factorize with a single group -/

namespace Net

theorem single_features {n : Net} (h : n.Good μ) (hw : n.Wide) (hd : n.depthOf = 0) : F n = 1 := by
  induction n with
  | fact c d R G =>
    replace hd : d = 0 := hd
    subst hd; rfl
  | prod n mode k outer ih => have := ih h.1 hw hd; have := h.2.2.2; omega
  | sum n Co θ ih => exact ih h.1 hw hd
  | einsum n Co p θ ih => have := ih h.1 hw hd; have := h.2.1.2; omega
  | linsum n Co θ ih => have := ih h.1 hw hd; have := h.2.1.2; omega
  | collapse n ih => rfl

theorem fact_single {G : List (List ℕ)} {F : ℕ} {lls : ℕ → LogV} (hp : G.flatten.Perm (List.range F)) (hl : G.length = 1) :
    Fact.logLik G F lls 0 = some (∑ i ∈ (range F).filter (fun i => Fact.owner G i = 0), lls i) := by
  have ho : ∀ i < F, Fact.owner G i = 0 ∧ Fact.indicator G i 0 = 1 := by
    intro i hi
    obtain ⟨h1, h2⟩ := Fact.C20_owner F G hp i hi
    have h0 : Fact.owner G i = 0 := by omega
    exact ⟨h0, by rw [h2 0 (by omega), if_pos h0.symm]⟩
  have e1 : (range F).filter (fun i => Fact.owner G i = 0) = range F :=
    filter_true_of_mem fun i hi => (ho i (mem_range.1 hi)).1
  have hm : ∀ y : LogV, Routing.fmul y 1 = some y := by
    intro y
    induction y using WithBot.recBotCoe with
    | bot => show (if (1 : ℝ) = 0 then none else some (⊥ : LogV)) = _; rw [if_neg one_ne_zero]
    | coe y => show some ((y * 1 : ℝ) : LogV) = _; rw [mul_one]
  unfold Fact.logLik
  rw [e1, List.map_congr_left (g := fun i => some (lls i)) fun i hi => by
    rw [(ho i (List.mem_range.1 hi)).2, Nat.cast_one, hm]]
  exact fsum_map_some _ _

/-- With a single group nothing is multiplied by zero. -/
theorem logLik_single {n : Net} (h : n.Good μ) (hw : n.Wide) (hd : n.depthOf = 0) (x : Row) : ∃ T, logLik n x = .ok T ∧
    ∀ f < F n, ∀ ch < n.C, ∀ r < R n, T f ch r = some (den r n f x ch) := by
  induction n with
  | fact c d R G =>
    replace hd : d = 0 := hd
    subst hd
    obtain ⟨-, -, ht, hG⟩ := h
    refine ⟨fun o ch r => Fact.logLik (G r) c.F (fun i => featAt (Circ.den c) i x r ch) o, ?_, ?_⟩
    · rcases ht with ht | ht
      · simp [logLik, ht]
      · simp [logLik, ht]
    · intro f hf ch hch r hr
      obtain ⟨hp, hl⟩ := hG r hr
      replace hf : f < 1 := hf
      obtain rfl : f = 0 := by omega
      exact fact_single hp hl
  | prod n mode k outer ih =>
    have h1 := single_features h.1 hw hd
    have h2 : 2 ≤ F n := h.2.2.2
    omega
  | sum n Co θ ih =>
    obtain ⟨T, hT, hv⟩ := ih h.1 hw hd
    refine ⟨fun f co r => nanLse n.C (fun ci => T f ci r) (logSoftmax n.C fun ci => θ f ci co r), ?_, ?_⟩
    · simp only [logLik, hT, bind, Except.bind, pure, Except.pure]
    · intro f hf ch hch r hr
      exact nanLse_some (fun ci hci => hv f hf ci hci r hr) _
  | einsum n Co p θ ih =>
    have h1 := single_features h.1 hw hd
    have h2 : 2 ≤ F n := h.2.1.2
    omega
  | linsum n Co θ ih =>
    have h1 := single_features h.1 hw hd
    have h2 : 2 ≤ F n := h.2.1.2
    omega
  | collapse n ih =>
    have h1 := single_features (n := n) h hw.1 hd
    have h2 : 2 ≤ F n := hw.2
    omega

end Net

/-! ### The theorems -/

/-- C68, the constructor: with arguments in the documented range it succeeds exactly if `2 ** depth` is at most the number of
variables; otherwise InvalidParameterError. -/
theorem C68_constructor (h : ESetup μ leaves a C Rl d) (hv : EValid a) :
    (width leaves < 2 ^ a.depth.toNat → buildEinet leaves a d = .error .invalidParameter) ∧
    (2 ^ a.depth.toNat ≤ width leaves → ∃ m, buildEinet leaves a d = .ok m) :=
  ⟨(einet_spec h hv).1, fun hle => ((einet_spec h hv).2 hle).imp fun _ h => h.1⟩

/-- C68: any argument outside the documented range raises InvalidParameterError. -/
theorem C68_rejects (leaves : List Circ) (d : Draws) (hv : ¬ EValid a) : buildEinet leaves a d = .error .invalidParameter := by
  unfold buildEinet
  simp only [bind, Except.bind, throw, throwThe, MonadExceptOf.throw]
  by_cases v1 : a.classes < 1
  · rw [if_pos v1]
  by_cases v2 : a.sums < 1
  · rw [if_neg v1, if_pos v2]
  by_cases v3 : a.leaves < 1
  · rw [if_neg v1, if_neg v2, if_pos v3]
  by_cases v4 : a.depth < 0
  · rw [if_neg v1, if_neg v2, if_neg v3, if_pos v4]
  by_cases v5 : a.R < 1
  · rw [if_neg v1, if_neg v2, if_neg v3, if_neg v4, if_pos v5]
  by_cases v6 : a.layer = .other
  · rw [if_neg v1, if_neg v2, if_neg v3, if_neg v4, if_neg v5, if_pos v6]
  by_cases v7 : a.struct = .other
  · rw [if_neg v1, if_neg v2, if_neg v3, if_neg v4, if_neg v5, if_neg v6, if_pos v7]
  exact absurd ⟨by omega, by omega, by omega, by omega, by omega, v6, v7⟩ hv

/-- C68, log_likelihood on rows on which no leaf component is impossible: the density `den`, never NaN or `-inf`. -/
theorem C68_log_likelihood_partial (h : ESetup μ leaves a C Rl d) (hv : EValid a) {m : Model} (hm : buildEinet leaves a d = .ok m)
    {x : Row} (hx : Possible leaves x) : m.logLik x = .ok (some (m.den x)) ∧ m.den x ≠ ⊥ :=
  (efacts h hv hm).1.logLik hx

/-- C68, log_likelihood when Factorize has a single group (top-down with depth 0, or a single variable): the density on every
row, `-inf` where it is zero. -/
theorem C68_single_group (h : ESetup μ leaves a C Rl d) (hv : EValid a) {m : Model} (hm : buildEinet leaves a d = .ok m)
    (h0 : factDepth leaves a = 0) (x : Row) : m.logLik x = .ok (some (m.den x)) := by
  obtain ⟨hf, hd, hw, -⟩ := efacts h hv hm
  obtain ⟨T, hT, hval⟩ := Net.logLik_single hf.ok.good hw (by rw [hd, h0]) x
  have hC := Net.posC hf.ok.good
  have h1 : 0 < m.net.F := by rw [hf.ok.one]; exact Nat.one_pos
  have hcl : ∀ ch < m.net.C, m.classOf T ch = some (m.classDen ch x) := by
    intro ch hch
    unfold Model.classOf Model.classDen
    cases m.mix with
    | none => exact hval 0 h1 ch hch 0 hf.ok.reps
    | some θ => exact nanLse_some (fun r hr => hval 0 h1 ch hch r hr) _
  unfold Model.logLik Model.den
  simp only [hT, bind, Except.bind, pure, Except.pure]
  cases hw : m.cls with
  | none => simp only; rw [hcl 0 hC]
  | some w => simp only; rw [nanLse_some hcl]

/-- C68 is FALSE on the other rows: NaN, although the true density may be positive. -/
theorem C68_impossible_component_nan (h : ESetup μ leaves a C Rl d) (hv : EValid a) {m : Model} (hm : buildEinet leaves a d = .ok m)
    (hd : 1 ≤ factDepth leaves a) {x : Row} (hx : ¬ Possible leaves x) : m.logLik x = .ok none :=
  (efacts h hv hm).1.nan ((efacts h hv hm).2.2.2 hd) hx

/-- C68: the density is normalised: missing values are integrated out exactly, the total mass is one, and it depends on no
other variable. -/
theorem C68_normalised [∀ v, SigmaFinite (μ v)] (h : ESetup μ leaves a C Rl d) (hv : EValid a) {m : Model}
    (hm : buildEinet leaves a d = .ok m) :
    (∀ S ⊆ scopeOf leaves, ∀ x : Var → ℝ,
      (∫⋯∫⁻_S, (fun y => ENNReal.ofReal (expL (m.den fun v => some (y v)))) ∂μ) x =
        ENNReal.ofReal (expL (m.den (maskRow S x)))) ∧
    (∀ x : Var → ℝ, (∫⋯∫⁻_(scopeOf leaves), (fun y => ENNReal.ofReal (expL (m.den fun v => some (y v)))) ∂μ) x = 1) ∧
    ∀ x y : Row, (∀ v, InScope leaves v → x v = y v) → m.den x = m.den y :=
  (efacts h hv hm).1.normalised

/-- C68 for leaves that are positive everywhere, or a single group: `exp(log_likelihood)` is a normalised density, and a NaN cell
is integrated out exactly. -/
theorem C68_density_partial [∀ v, SigmaFinite (μ v)] (h : ESetup μ leaves a C Rl d) (hv : EValid a) {m : Model}
    (hm : buildEinet leaves a d = .ok m) (hpos : (∀ x, Possible leaves x) ∨ factDepth leaves a = 0) :
    ∃ g : Row → LogV, (∀ x, m.logLik x = .ok (some (g x))) ∧
      (∀ S ⊆ scopeOf leaves, ∀ x : Var → ℝ, (∫⋯∫⁻_S, (fun y => ENNReal.ofReal (expL (g fun v => some (y v)))) ∂μ) x =
        ENNReal.ofReal (expL (g (maskRow S x)))) ∧
      ∀ x : Var → ℝ, (∫⋯∫⁻_(scopeOf leaves), (fun y => ENNReal.ofReal (expL (g fun v => some (y v)))) ∂μ) x = 1 := by
  obtain ⟨n1, n2, -⟩ := C68_normalised h hv hm
  refine ⟨m.den, fun x => ?_, n1, n2⟩
  rcases hpos with hpos | h0
  · exact (C68_log_likelihood_partial h hv hm (hpos x)).1
  · exact C68_single_group h hv hm h0 x

/-- C68, log_posterior: with one class UnsupportedOperationError; otherwise, on possible rows, class `k` gets prior times class
density over the model's density, and these are probabilities. -/
theorem C68_posterior_partial (h : ESetup μ leaves a C Rl d) (hv : EValid a) {m : Model} (hm : buildEinet leaves a d = .ok m) (x : Row) :
    (a.classes = 1 → m.logPosterior x = .error .unsupported) ∧
    (1 < a.classes → Possible leaves x → ∃ p, m.predictProba x = .ok p ∧
      (∀ k < a.classes, p k = some (softmax a.classes d.wroot k * expL (m.classDen k x) / expL (m.den x))) ∧
      ∑ k ∈ range a.classes, softmax a.classes d.wroot k * expL (m.classDen k x) / expL (m.den x) = 1) :=
  (efacts h hv hm).1.posterior x

/-- C68, sampling: `sample()` never raises, keeps every given value and fills every variable; so does `sample_with_evidence`
on possible evidence. -/
theorem C68_sampling_fills (h : ESetup μ leaves a C Rl d) (hv : EValid a) {m : Model} (hm : buildEinet leaves a d = .ok m)
    (hRl : Rl = a.R) :
    (∀ y, ¬ Fails (m.sample none y) ∧ ∀ z, Outcome (m.sample none y) z → (∀ v, InScope leaves v → z v ≠ none) ∧
      (∀ v t, y v = some t → z v = some t) ∧ ∀ v, ¬ InScope leaves v → z v = y v) ∧
    ∀ e, Possible leaves e → ¬ Fails (m.sampleWithEvidence e) ∧ ∀ z, Outcome (m.sampleWithEvidence e) z →
      (∀ v, InScope leaves v → z v ≠ none) ∧ (∀ v t, e v = some t → z v = some t) ∧ ∀ v, ¬ InScope leaves v → z v = e v :=
  (efacts h hv hm).1.fills h.leafOk hRl

/-- C68, the distribution, as far as it is right (discrete leaves).  With one class `sample()` draws `x` with probability
`exp(log_likelihood(x))` and `sample_with_evidence(e)` the completion `x` with probability p(x)/p(e), for every number of
repetitions; with several classes `sample()` is right for one repetition. -/
theorem C68_sampling_partial (h : ESetup μ leaves a C Rl d) (hv : EValid a) {m : Model} (hm : buildEinet leaves a d = .ok m)
    (hRl : Rl = a.R) :
    (a.classes = 1 ∨ a.R = 1 → ∀ x, Completes leaves (fun _ => none) x →
      (m.sample none fun _ => none).prob x = ENNReal.ofReal (expL (m.den x))) ∧
    (a.classes = 1 → ∀ e x, Possible leaves e → Completes leaves e x →
      (m.sampleWithEvidence e).prob x = ENNReal.ofReal (expL (m.den x) / expL (m.den e))) :=
  (efacts h hv hm).1.sampling h.leafOk hRl

/-- C68, the distribution in general: class from the prior, repetition from one distribution for all classes, the rest from class
and repetition given the evidence. -/
theorem C68_sampling_law (h : ESetup μ leaves a C Rl d) (hv : EValid a) {m : Model} (hm : buildEinet leaves a d = .ok m)
    (hRl : Rl = a.R) {e x : Row} (he : Possible leaves e) (hx : Completes leaves e x) :
    ((∀ v, e v = none) → (m.sample none e).prob x = ∑ ch ∈ range a.classes, ENNReal.ofReal (m.clsProb ch) *
      ∑ r ∈ range a.R, ENNReal.ofReal (m.repProb none r) * ENNReal.ofReal (expL (m.net.den r 0 x ch))) ∧
    (m.sampleWithEvidence e).prob x = ∑ ch ∈ range a.classes, ENNReal.ofReal (m.clsProb ch) *
      ∑ r ∈ range a.R, ENNReal.ofReal (m.repProb (some e) r) *
        ENNReal.ofReal (expL (m.net.den r 0 x ch) / expL (m.net.den r 0 e ch)) :=
  (efacts h hv hm).1.law hRl he hx

/-- C68 is FALSE on evidence on which some leaf component is impossible: `sample_with_evidence` always raises. -/
theorem C68_impossible_component_raises (h : ESetup μ leaves a C Rl d) (hv : EValid a) {m : Model} (hm : buildEinet leaves a d = .ok m)
    (hd : 1 ≤ factDepth leaves a) {e : Row} (he : ¬ Possible leaves e) :
    Fails (m.sampleWithEvidence e) ∧ ∀ z, ¬ Outcome (m.sampleWithEvidence e) z :=
  (efacts h hv hm).1.raises ((efacts h hv hm).2.2.2 hd) he

/-- C68, `sample(data=batch)`, whose columns contain the model's variables: every row is completed - without raising, keeping what is
given - and with one class an incomplete row `y` becomes `x` with probability p(x)/p(y), without the caller asking for evidence. -/
theorem C68_sample_data_partial (h : ESetup μ leaves a C Rl d) (hv : EValid a) {m : Model} (hm : buildEinet leaves a d = .ok m)
    (hRl : Rl = a.R) {w : ℕ} (hw : ∀ v, InScope leaves v → ∃ i < w, v = (i : ℤ)) {batch : List Row} {y : Row} (hy : y ∈ batch)
    (hout : ∀ v, y v ≠ none → ∃ i < w, v = (i : ℤ)) (hp : Possible leaves y) :
    (¬ Fails (m.einetSample w batch y) ∧ ∀ z, Outcome (m.einetSample w batch y) z → Completes leaves y z) ∧
    (a.classes = 1 → (∃ v, InScope leaves v ∧ y v = none) → ∀ x, Completes leaves y x →
      (m.einetSample w batch y).prob x = ENNReal.ofReal (expL (m.den x) / expL (m.den y))) := by
  obtain ⟨fi1, fi2⟩ := C68_sampling_fills h hv hm hRl
  obtain ⟨sa1, sa2⟩ := C68_sampling_partial h hv hm hRl
  have hf := (efacts h hv hm).1
  unfold Model.einetSample
  cases hpe : partialEvidence w batch with
  | true =>
    simp only [if_true]
    exact ⟨fi2 y hp, fun h1 _ x hx => sa2 h1 y x hp hx⟩
  | false =>
    simp only [Bool.false_eq_true, if_false]
    refine ⟨fi1 y, fun h1 hmiss x hx => ?_⟩
    obtain ⟨v, hv1, hv2⟩ := hmiss
    obtain ⟨i, hi, rfl⟩ := hw v hv1
    have hnone : y = fun _ => none := by
      funext u
      by_contra hne
      obtain ⟨j, hj, rfl⟩ := hout u hne
      have : partialEvidence w batch = true := by
        unfold partialEvidence
        rw [Bool.and_eq_true, List.any_eq_true, List.any_eq_true]
        refine ⟨⟨y, hy, ?_⟩, ⟨y, hy, ?_⟩⟩
        · rw [List.any_eq_true]
          exact ⟨i, List.mem_range.2 hi, by rw [hv2]; rfl⟩
        · rw [List.any_eq_true]
          exact ⟨j, List.mem_range.2 hj, Option.isSome_iff_ne_none.2 hne⟩
      rw [hpe] at this; cases this
    subst hnone
    rw [sa1 (.inl h1) x hx]
    have : expL (m.den fun _ => none) = 1 := (Model.fam hf.ok).miss 0 Nat.one_pos 0 Nat.one_pos _ fun _ _ => rfl
    rw [this, div_one]

end Verif.Rat

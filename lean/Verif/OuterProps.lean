import Verif.Outer
import Verif.SplitsProps
import Verif.LogSpace
import Mathlib.Data.List.GetD
/-
C19: the channels of an OuterProduct.
-/
namespace Verif.Outer
variable {α : Type}

/-! ### Specification: row-major numbering of tuples -/

/-- The tuple `idx` is a choice of one channel per input. -/
def ValidTuple (counts idx : List Nat) : Prop := List.Forall₂ (fun n i => i < n) counts idx

/-- The row-major (C order) number of a tuple. -/
def rowMajor : List Nat → List Nat → Nat
  | _ :: ns, i :: is => i * ns.prod + rowMajor ns is
  | _, _ => 0

/-- The value of a tuple of channels: the sum (product, in linear space) of the chosen entries. -/
def pick [AddMonoid α] (xs : List (List α)) (idx : List Nat) : α :=
  ((xs.zip idx).map fun p => p.1.getD p.2 0).sum

/-! ### The table -/

theorem table_length (counts : List Nat) : (unravelTable counts).length = counts.prod := by
  induction counts with
  | nil => rfl
  | cons n ns ih => simp [unravelTable, List.length_flatMap, ih]

theorem mem_table (counts idx : List Nat) : idx ∈ unravelTable counts ↔ ValidTuple counts idx := by
  induction counts generalizing idx with
  | nil => simp [unravelTable, ValidTuple]
  | cons n ns ih =>
    simp only [unravelTable, List.mem_flatMap, List.mem_range, List.mem_map]
    constructor
    · rintro ⟨i, hi, is, his, rfl⟩
      exact List.Forall₂.cons hi ((ih is).mp his)
    · intro h
      cases h with
      | cons h1 h2 => exact ⟨_, h1, _, (ih _).mpr h2, rfl⟩

theorem flatMap_getElem {β γ : Type} (l : List β) (f : β → List γ) (m : Nat) (hm : ∀ b ∈ l, (f b).length = m)
    (i j : Nat) (hi : i < l.length) (hj : j < m) :
    (l.flatMap f)[i * m + j]? = (f l[i])[j]? := by
  induction l generalizing i with
  | nil => simp at hi
  | cons b l ih =>
    rw [List.flatMap_cons]
    have hb : (f b).length = m := hm b (by simp)
    cases i with
    | zero =>
      rw [List.getElem?_append_left (by omega)]
      simp
    | succ i =>
      rw [List.getElem?_append_right (by rw [hb, Nat.succ_mul]; omega), hb]
      have : (i + 1) * m + j - m = i * m + j := by rw [Nat.succ_mul]; omega
      rw [this, ih (fun b hb => hm b (by simp [hb])) i (by simpa using hi)]
      simp

theorem rowMajor_lt (counts idx : List Nat) (h : ValidTuple counts idx) : rowMajor counts idx < counts.prod := by
  induction h with
  | nil => simp [rowMajor]
  | @cons n i ns is hi _ ih =>
    rw [rowMajor, List.prod_cons]
    calc i * ns.prod + rowMajor ns is < i * ns.prod + ns.prod := by omega
      _ = (i + 1) * ns.prod := by ring
      _ ≤ n * ns.prod := Nat.mul_le_mul_right _ hi

/-- **C19, unravel is row-major**: the tuple `idx` sits at its row-major number. -/
theorem C19_unravel_row_major (counts idx : List Nat) (h : ValidTuple counts idx) :
    (unravelTable counts)[rowMajor counts idx]? = some idx := by
  induction h with
  | nil => simp [unravelTable, rowMajor]
  | @cons n i ns is hi hv ih =>
    have hi' : i < (List.range n).length := by rw [List.length_range]; exact hi
    rw [unravelTable, rowMajor, flatMap_getElem (m := ns.prod) (hi := hi')]
    · rw [List.getElem?_map, ih]
      simp
    · intro b _
      rw [List.length_map, table_length]
    · exact rowMajor_lt ns is hv

theorem table_nodup (counts : List Nat) : (unravelTable counts).Nodup := by
  induction counts with
  | nil => simp [unravelTable]
  | cons n ns ih =>
    rw [unravelTable, List.nodup_flatMap]
    constructor
    · intro i _
      exact ih.map (fun a b h => by simpa using h)
    · apply List.Pairwise.imp _ (List.pairwise_lt_range (n := n))
      intro i j hij x hx hy
      obtain ⟨a, _, rfl⟩ := List.mem_map.mp hx
      obtain ⟨b, _, hb⟩ := List.mem_map.mp hy
      simp only [List.cons.injEq] at hb
      omega

/-- **C19, unravel is a bijection** between the output channels `0 .. Π counts - 1` and the tuples of
input channels: every output channel has a valid tuple, every valid tuple has exactly one output
channel. -/
theorem C19_unravel_bijective (counts : List Nat) :
    outChannels counts = counts.prod ∧
    (∀ o < outChannels counts, ∃ idx, (unravelTable counts)[o]? = some idx ∧ ValidTuple counts idx) ∧
    (∀ idx, ValidTuple counts idx → ∃! o, o < outChannels counts ∧ (unravelTable counts)[o]? = some idx) := by
  refine ⟨table_length counts, ?_, ?_⟩
  · intro o ho
    refine ⟨(unravelTable counts)[o], List.getElem?_eq_getElem ho, ?_⟩
    exact (mem_table _ _).mp (List.getElem_mem _)
  · intro idx h
    refine ⟨rowMajor counts idx, ⟨?_, C19_unravel_row_major counts idx h⟩, ?_⟩
    · rw [outChannels, table_length]; exact rowMajor_lt _ _ h
    · rintro o ⟨ho, he⟩
      have h1 := C19_unravel_row_major counts idx h
      have hr : rowMajor counts idx < (unravelTable counts).length := by
        rw [table_length]; exact rowMajor_lt _ _ h
      rw [List.getElem?_eq_getElem hr] at h1
      rw [List.getElem?_eq_getElem ho] at he
      exact (table_nodup counts).getElem_inj_iff.mp (Option.some.inj (he.trans h1.symm))

/-! ### log_likelihood -/

theorem foldl_outer [AddMonoid α] (xs : List (List α)) (acc : List α) :
    xs.foldl outerStep acc
      = acc.flatMap fun a => (unravelTable (xs.map List.length)).map fun idx => a + pick xs idx := by
  induction xs generalizing acc with
  | nil => simp [unravelTable, pick, List.flatMap_singleton']
  | cons x xs ih =>
    rw [List.foldl_cons, ih, outerStep, List.flatMap_assoc]
    apply List.flatMap_congr
    intro a _
    rw [List.flatMap_map, List.map_cons, unravelTable, List.map_flatMap]
    have hx : x = (List.range x.length).map fun i => x.getD i 0 := by
      apply List.ext_getElem (by simp)
      intro i h1 h2
      simp [List.getElem?_eq_getElem h1]
    conv_lhs => rw [hx, List.flatMap_map]
    apply List.flatMap_congr
    intro i _
    rw [List.map_map]
    apply List.map_congr_left
    intro idx _
    simp [pick, add_assoc]

/-- **C19, log_likelihood.** The output channels are, in order, the sums of the input channels named by
the table: for every number of inputs (at least one), every channel count and every value. -/
theorem C19_log_likelihood [AddMonoid α] (xs : List (List α)) (hne : xs ≠ []) :
    outerLL xs = (unravelTable (xs.map List.length)).map (pick xs) := by
  cases xs with
  | nil => exact absurd rfl hne
  | cons x xs =>
    rw [outerLL, foldl_outer, List.map_cons, unravelTable, List.map_flatMap]
    have hx : x = (List.range x.length).map fun i => x.getD i 0 := by
      apply List.ext_getElem (by simp)
      intro i h1 h2
      simp [List.getElem?_eq_getElem h1]
    conv_lhs => rw [hx, List.flatMap_map]
    apply List.flatMap_congr
    intro i _
    rw [List.map_map]
    apply List.map_congr_left
    intro idx _
    simp [pick]

/-- The same in linear space: channel `rowMajor idx` has the likelihood `∏ᵢ exp(xs i (idx i))`. -/
theorem C19_likelihood_is_product (xs : List (List LogV)) (hne : xs ≠ []) (idx : List Nat)
    (h : ValidTuple (xs.map List.length) idx) :
    ∃ v, (outerLL xs)[rowMajor (xs.map List.length) idx]? = some v ∧
      expL v = ((xs.zip idx).map fun p => expL (p.1.getD p.2 0)).prod := by
  refine ⟨pick xs idx, ?_, ?_⟩
  · rw [C19_log_likelihood xs hne, List.getElem?_map, C19_unravel_row_major _ _ h]
    rfl
  · rw [pick, expL_list_sum, List.map_map]
    rfl

/-! ### Sampling -/

theorem zip_one (counts idx : List Nat) (h : ValidTuple counts idx) :
    ((counts.zip idx).map fun p => if p.1 = 1 then 0 else p.2) = idx := by
  induction h with
  | nil => rfl
  | @cons n i ns is hi _ ih =>
    rw [List.zip_cons_cons, List.map_cons, ih]
    congr 1
    split
    · dsimp only at *; omega
    · rfl

/-- **C19, sampling.** Sampling output channel `o` routes to the inputs exactly the tuple whose product
`log_likelihood` put into channel `o`; an index beyond the channels raises. -/
theorem C19_sampling_routes_tuple [AddMonoid α] (xs : List (List α)) (hne : xs ≠ []) (o : Nat) :
    (∀ v, (outerLL xs)[o]? = some v →
      ∃ idx, routeInt (xs.map List.length) o = .ok idx ∧ ValidTuple (xs.map List.length) idx ∧
        v = pick xs idx) ∧
    ((outerLL xs)[o]? = none → ∃ e, routeInt (xs.map List.length) o = .error e) := by
  rw [C19_log_likelihood xs hne]
  constructor
  · intro v hv
    rw [List.getElem?_map] at hv
    cases ht : (unravelTable (xs.map List.length))[o]? with
    | none => rw [ht] at hv; simp at hv
    | some idx =>
      rw [ht] at hv
      have hvalid := (mem_table _ _).mp (List.mem_of_getElem? ht)
      refine ⟨idx, ?_, hvalid, ?_⟩
      · rw [routeInt, ht]
        dsimp only
        rw [zip_one _ _ hvalid]
      · simpa using hv.symm
  · intro hv
    rw [List.getElem?_map] at hv
    have : (unravelTable (xs.map List.length))[o]? = none := by
      cases ht : (unravelTable (xs.map List.length))[o]? with
      | none => rfl
      | some idx => rw [ht] at hv; simp at hv
    exact ⟨_, by rw [routeInt, this]⟩

theorem foldl_zip_zero (l : List (List Nat)) (ids : List Nat) (g : List Nat → Nat → Nat) (acc : Nat)
    (h : ∀ p ∈ l.zip ids, g p.1 p.2 = 0) : (l.zip ids).foldl (fun acc p => acc + g p.1 p.2) acc = acc := by
  induction l generalizing ids acc with
  | nil => simp
  | cons a l ih =>
    cases ids with
    | nil => simp
    | cons b ids =>
      rw [List.zip_cons_cons, List.foldl_cons, h (a, b) (by simp)]
      exact ih ids _ (fun p hp => h p (by simp [hp]))

theorem foldl_onehot (l : List (List Nat)) (q : List Nat → Bool) (o off acc : Nat) (hoff : off ≤ o)
    (ho : o < off + l.length) :
    (l.zip ((List.range l.length).map fun j => if off + j = o then 1 else 0)).foldl
        (fun acc p => acc + (if q p.1 then p.2 else 0)) acc
      = acc + (if q (l.getD (o - off) []) then 1 else 0) := by
  induction l generalizing off acc with
  | nil => simp at ho; omega
  | cons a l ih =>
    rw [List.length_cons, List.range_succ_eq_map, List.map_cons, List.map_map, List.zip_cons_cons,
      List.foldl_cons]
    by_cases h : off = o
    · subst h
      rw [foldl_zip_zero l _ (fun a b => if q a then b else 0)]
      · simp
      · rintro ⟨x, y⟩ hp
        have hy := (List.of_mem_zip hp).2
        obtain ⟨j, _, rfl⟩ := List.mem_map.mp hy
        simp
    · have e : ((fun j => if off + j = o then 1 else 0) ∘ Nat.succ)
          = fun j : Nat => if (off + 1) + j = o then 1 else 0 := by
        funext j
        simp only [Function.comp, Nat.succ_eq_add_one]
        rw [show off + (j + 1) = off + 1 + j by omega]
      rw [e, ih (off + 1) _ (by omega) (by simp at ho; omega)]
      have : o - off = (o - (off + 1)) + 1 := by omega
      rw [this]
      simp [h]

/-- **C19, differentiable sampling.** For the one-hot row of output channel `o`, input `i` receives the
one-hot row of the `i`-th entry of the tuple, i.e. the same channel as integer routing. -/
theorem C19_one_hot_agrees (counts : List Nat) (o : Nat) (idx : List Nat)
    (h : routeInt counts o = .ok idx) (i : Nat) :
    routeHot counts (oneHot (outChannels counts) o) i = oneHot (counts.getD i 0) (idx.getD i 0) := by
  unfold routeInt at h
  cases ht : (unravelTable counts)[o]? with
  | none => rw [ht] at h; simp at h
  | some t =>
    rw [ht] at h
    have hvalid := (mem_table _ _).mp (List.mem_of_getElem? ht)
    dsimp only at h
    rw [zip_one _ _ hvalid] at h
    simp only [Except.ok.injEq] at h
    subst h
    unfold routeHot oneHot
    apply List.map_congr_left
    intro c _
    have ho : o < (unravelTable counts).length := (List.getElem?_eq_some_iff.mp ht).1
    have := foldl_onehot (unravelTable counts) (fun p => p.getD i 0 = c) o 0 0 (by omega) (by omega)
    simp only [Nat.zero_add, decide_eq_true_eq, Nat.sub_zero] at this
    unfold outChannels
    rw [this]
    have hg : (unravelTable counts).getD o [] = t := by
      rw [List.getD_eq_getElem?_getD, ht]; rfl
    rw [hg]
    by_cases hc : t.getD i 0 = c
    · rw [if_pos hc, if_pos hc.symm]
    · rw [if_neg hc, if_neg (fun h => hc h.symm)]

/-- **C19, single split input.** The channel routed through a SplitConsecutive / SplitInterleaved reaches
the input feature whose value was used: combine with C17_route_consecutive / C17_route_interleaved for
`req f s = (unravelTable counts)[o f][s]`. -/
theorem C19_split_routing (n L c : Nat) (hn : 0 < n) (hL : 0 < L) (o : Nat → Nat) :
    let req := fun f s => ((unravelTable (List.replicate n c)).getD (o f) []).getD s 0
    (∃ ys, Split.splitConsecutive n (Split.routeConsecutive n L req) = .ok ys ∧
      ∀ s < n, ys[s]? = some ((List.range L).map fun f => req f s)) ∧
    Split.splitInterleaved n (Split.routeInterleaved n L req)
      = (List.range n).map fun s => (List.range L).map fun f => req f s := by
  intro req
  obtain ⟨ys, h1, _, h3⟩ := Split.C17_route_consecutive n L hn hL req
  exact ⟨⟨ys, h1, h3⟩, Split.C17_route_interleaved n L hn req⟩

/-- Non-vacuity: three inputs with 2, 1 and 3 channels; output channel 4 is the tuple (1, 0, 1). -/
example : ValidTuple [2, 1, 3] [1, 0, 1] ∧ rowMajor [2, 1, 3] [1, 0, 1] = 4 ∧
    outerLL [[10, 20], [100], [1, 2, 3]] = [111, 112, 113, 121, 122, 123] ∧
    (routeInt [2, 1, 3] 4).toOption = some [1, 0, 1] := by
  refine ⟨?_, rfl, by decide, by decide⟩
  unfold ValidTuple
  simp

end Verif.Outer

import Verif.Cache
/-
C06: the per-traversal cache is transparent, evaluates shared nodes once, keeps stored entries.
-/
namespace Verif.CacheM

variable {D K V : Type} [DecidableEq K]

/-- Every call made by the body goes to a key of smaller rank: the module graph is acyclic. -/
inductive Below (rank : K → Nat) (r : Nat) : Comp K V → Prop
  | ret (v) : Below rank r (.ret v)
  | raise (e) : Below rank r (.raise e)
  | call (k cont) : rank k < r → (∀ v, Below rank r (cont v)) → Below rank r (.call k cont)

/-- A module DAG: some ranking decreases along every call. -/
def Acyclic (g : K → Comp K V) (rank : K → Nat) : Prop := ∀ k, Below rank (rank k) (g k)

/-- The body never returns Python's `None`. -/
inductive NeverNone : Comp K V → Prop
  | ret (v) : NeverNone (.ret (some v))
  | raise (e) : NeverNone (.raise e)
  | call (k cont) : (∀ v, NeverNone (cont v)) → NeverNone (.call k cont)

/-- The uncached result of a method, independent of the recursion depth left (as long as it
suffices, see `evalU_depth`). -/
def value (g : K → Comp K V) (rank : K → Nat) (k : K) : Res V := evalU g (rank k + 1) k

omit [DecidableEq K] in
theorem runU_congr {rank : K → Nat} {r : Nat} {rec rec' : K → Res V} {c : Comp K V}
    (hc : Below rank r c) (h : ∀ k, rank k < r → rec k = rec' k) : runU rec c = runU rec' c := by
  induction hc with
  | ret v => rfl
  | raise e => rfl
  | call k cont hk _ ih =>
    simp only [runU, h k hk]
    split
    · rename_i v _; exact ih v
    · rfl

theorem evalU_depth {g : K → Comp K V} {rank : K → Nat} (hg : Acyclic g rank) :
    ∀ (n : Nat) (k : K), rank k < n → evalU g n k = value g rank k := by
  have key : ∀ (r : Nat) (k : K) (n m : Nat), rank k < r → rank k < n → rank k < m →
      evalU g n k = evalU g m k := by
    intro r
    induction r with
    | zero => intro k n m h; omega
    | succ r ih =>
      intro k n m hr hn hm
      obtain ⟨n, rfl⟩ : ∃ n', n = n' + 1 := ⟨n - 1, by omega⟩
      obtain ⟨m, rfl⟩ : ∃ m', m = m' + 1 := ⟨m - 1, by omega⟩
      simp only [evalU]
      apply runU_congr (hg k)
      intro k' hk'
      exact ih k' n m (by omega) (by omega) (by omega)
  intro n k h
  exact key (rank k + 1) k _ _ (by omega) h (by omega)

theorem value_unfold {g : K → Comp K V} {rank : K → Nat} (hg : Acyclic g rank) (k : K) :
    value g rank k = runU (value g rank) (g k) := by
  unfold value
  simp only [evalU]
  apply runU_congr (hg k)
  intro k' hk'
  exact evalU_depth hg _ _ hk'

/-- Every usable entry of the cache is the uncached result for this data. -/
def Consistent (g : K → Comp K V) (rank : K → Nat) (s : State K V) : Prop :=
  ∀ k v, s.get k = some v → value g rank k = .val (some v)

theorem Consistent.set {g : K → Comp K V} {rank : K → Nat} {s : State K V}
    (hs : Consistent g rank s) {k : K} {v : Option V} (hv : value g rank k = .val v) :
    Consistent g rank (s.set k v) := by
  intro k' v' h
  unfold State.get State.set at h
  dsimp only at h
  split at h
  · rename_i hk
    subst hk
    simp only [Option.join_some] at h
    rw [hv, h]
  · exact hs k' v' h

/-- Entries that are present (and not `None`) stay what they are. -/
def Extends (s s' : State K V) : Prop := ∀ k v, s.get k = some v → s'.get k = some v

/-- The facts about one cached call that are proved by one induction. -/
structure CallOK (g : K → Comp K V) (rank : K → Nat) (r : Nat) (s s' : State K V) : Prop where
  cons : Consistent g rank s'
  ext : Extends s s'

omit [DecidableEq K] in
theorem runC_spec {g : K → Comp K V} {rank : K → Nat} {r : Nat}
    {rec : K → State K V → State K V × Res V}
    (hrec : ∀ k s, rank k < r → Consistent g rank s →
      (rec k s).2 = value g rank k ∧ CallOK g rank r s (rec k s).1)
    {c : Comp K V} (hc : Below rank r c) :
    ∀ s, Consistent g rank s →
      (runC rec c s).2 = runU (value g rank) c ∧ CallOK g rank r s (runC rec c s).1 := by
  induction hc with
  | ret v => intro s hs; exact ⟨rfl, hs, fun _ _ h => h⟩
  | raise e => intro s hs; exact ⟨rfl, hs, fun _ _ h => h⟩
  | call k cont hk _ ih =>
    intro s hs
    obtain ⟨h1, h2⟩ := hrec k s hk hs
    simp only [runC, runU]
    split
    · rename_i s' v heq
      rw [heq] at h1 h2
      dsimp only at h1 h2
      obtain ⟨h3, h4⟩ := ih v s' h2.cons
      rw [← h1]
      exact ⟨h3, h4.cons, fun k v h => h4.ext k v (h2.ext k v h)⟩
    · rename_i s' e heq
      rw [heq] at h1 h2
      dsimp only at h1 h2
      rw [← h1]
      exact ⟨rfl, h2⟩

theorem evalC_spec {g : K → Comp K V} {rank : K → Nat} (hg : Acyclic g rank) :
    ∀ (n : Nat) (k : K) (s : State K V), rank k < n → Consistent g rank s →
      (evalC g n k s).2 = value g rank k ∧ CallOK g rank (rank k + 1) s (evalC g n k s).1 := by
  intro n
  induction n with
  | zero => intro k s h; omega
  | succ n ih =>
    intro k s hn hs
    have hbody := runC_spec (g := g) (rank := rank) (r := rank k) (rec := evalC g n)
      (fun k' s' hk' hs' => by
        obtain ⟨a, b⟩ := ih k' s' (by omega) hs'
        exact ⟨a, b.cons, b.ext⟩) (hg k) (s.logged k) hs
    rw [← value_unfold hg k] at hbody
    rw [evalC]
    split
    · rename_i v hv
      exact ⟨(hs k v hv).symm, hs, fun _ _ h => h⟩
    · rename_i hv
      split
      · rename_i s' v heq
        rw [heq] at hbody
        obtain ⟨h1, h2⟩ := hbody
        dsimp only at h1 h2
        refine ⟨h1, h2.cons.set h1.symm, ?_⟩
        intro k' v' h
        have hne : k' ≠ k := by
          intro he; subst he; rw [hv] at h; exact absurd h (by simp)
        have := h2.ext k' v' h
        unfold State.get State.set
        simp only [hne, if_false]
        exact this
      · rename_i s' e heq
        rw [heq] at hbody
        obtain ⟨h1, h2⟩ := hbody
        exact ⟨h1, h2.cons, h2.ext⟩

/-- **C06, transparency.** On any module DAG, calling a cached method with a fresh Cache gives
exactly the result (value or exception) of the undecorated methods, with no entry of the cache ever
wrong afterwards - so any number of further calls on the same data and cache are right too. -/
theorem C06_transparent (g : K → Comp K V) (rank : K → Nat) (hg : Acyclic g rank) (n : Nat) (k : K)
    (hn : rank k < n) :
    (evalC g n k State.empty).2 = evalU g n k ∧
    ∀ (k' : K) (m : Nat), rank k' < m →
      (evalC g m k' (evalC g n k State.empty).1).2 = evalU g m k' := by
  have h0 : Consistent g rank (State.empty : State K V) := by
    intro k v h; simp [State.get, State.empty] at h
  obtain ⟨h1, h2⟩ := evalC_spec hg n k _ hn h0
  refine ⟨by rw [h1, evalU_depth hg n k hn], ?_⟩
  intro k' m hm
  rw [(evalC_spec hg m k' _ hm h2.cons).1, evalU_depth hg m k' hm]

omit [DecidableEq K] in
theorem runC_ext {rec : K → State K V → State K V × Res V}
    (hrec : ∀ k s, Extends s (rec k s).1) (c : Comp K V) :
    ∀ s, Extends s (runC rec c s).1 := by
  induction c with
  | ret v => intro s k v h; exact h
  | raise e => intro s k v h; exact h
  | call k cont ih =>
    intro s
    have h1 := hrec k s
    simp only [runC]
    split
    · rename_i s' v heq
      rw [heq] at h1
      intro k' v' h
      exact ih v s' k' v' (h1 k' v' h)
    · rename_i s' e heq
      rw [heq] at h1
      exact h1

/-- **C06, entries are stable.** A cached call never changes an entry already present, whatever the
entries are (also entries computed from other data) and whatever the graph is (also cyclic). -/
theorem C06_entries_unchanged (g : K → Comp K V) :
    ∀ (n : Nat) (k : K) (s : State K V) (k' : K) (v : V),
      s.get k' = some v → (evalC g n k s).1.get k' = some v := by
  intro n
  induction n with
  | zero => intro k s k' v h; exact h
  | succ n ih =>
    intro k s k' v h
    rw [evalC]
    split
    · exact h
    · rename_i hk
      have hne : k' ≠ k := by
        intro he; subst he; rw [hk] at h; exact absurd h (by simp)
      have hx := runC_ext (rec := evalC g n) (fun k s k' v h => ih k s k' v h) (g k) (s.logged k) k' v h
      split
      · rename_i s' w heq
        rw [heq] at hx
        unfold State.get State.set
        simp only [hne, if_false]
        exact hx
      · rename_i s' e heq
        rw [heq] at hx
        exact hx

/-- What one cached call adds to the log of executed bodies. -/
structure LogOK (rank : K → Nat) (r : Nat) (s s' : State K V) (res : Res V) (L : List K) : Prop where
  log : s'.log = s.log ++ L
  nodup : L.Nodup
  fresh : ∀ x ∈ L, s.get x = none ∧ rank x < r
  stored : ∀ v, res = .val v → ∀ x ∈ L, s'.get x ≠ none
  some : res ≠ .val none

omit [DecidableEq K] in
theorem runC_log {rank : K → Nat} {r : Nat} {rec : K → State K V → State K V × Res V}
    (hext : ∀ k s, Extends s (rec k s).1)
    (hrec : ∀ k s, rank k < r → ∃ L, LogOK rank r s (rec k s).1 (rec k s).2 L)
    {c : Comp K V} (hc : Below rank r c) (hnn : NeverNone c) :
    ∀ s, ∃ L, LogOK rank r s (runC rec c s).1 (runC rec c s).2 L := by
  induction hc with
  | ret v =>
    intro s
    refine ⟨[], by simp [runC], by simp, by simp, by simp, ?_⟩
    cases hnn
    simp [runC]
  | raise e => intro s; exact ⟨[], by simp [runC], by simp, by simp, by simp, by simp [runC]⟩
  | call k cont hk _ ih =>
    intro s
    have hnn' : ∀ v, NeverNone (cont v) := by cases hnn; assumption
    obtain ⟨L1, h1⟩ := hrec k s hk
    have he1 := hext k s
    simp only [runC]
    split
    · rename_i s' v heq
      rw [heq] at h1 he1
      obtain ⟨L2, h2⟩ := ih v (hnn' v) s'
      have hx2 := runC_ext hext (cont v) s'
      refine ⟨L1 ++ L2, ?_, ?_, ?_, ?_, h2.some⟩
      · rw [h2.log, h1.log, List.append_assoc]
      · rw [List.nodup_append]
        refine ⟨h1.nodup, h2.nodup, ?_⟩
        intro a ha b hb hab
        subst hab
        exact h1.stored v rfl a ha (h2.fresh a hb).1
      · intro x hx
        rcases List.mem_append.mp hx with hx | hx
        · exact h1.fresh x hx
        · refine ⟨?_, (h2.fresh x hx).2⟩
          cases hg : s.get x with
          | none => rfl
          | some w =>
            have h3 := (h2.fresh x hx).1
            rw [he1 x w hg] at h3
            exact absurd h3 (by simp)
      · intro w hw x hx
        rcases List.mem_append.mp hx with hx | hx
        · have h3 := h1.stored v rfl x hx
          cases hg : s'.get x with
          | none => exact absurd hg h3
          | some w' => rw [hx2 x w' hg]; simp
        · exact h2.stored w hw x hx
    · rename_i s' e heq
      rw [heq] at h1
      exact ⟨L1, h1.log, h1.nodup, h1.fresh, by simp, by simp⟩

theorem evalC_log {g : K → Comp K V} {rank : K → Nat} (hg : Acyclic g rank)
    (hnn : ∀ k, NeverNone (g k)) :
    ∀ (n : Nat) (k : K) (s : State K V),
      ∃ L, LogOK rank (rank k + 1) s (evalC g n k s).1 (evalC g n k s).2 L := by
  intro n
  induction n with
  | zero => intro k s; exact ⟨[], by simp [evalC], by simp, by simp, by simp, by simp [evalC]⟩
  | succ n ih =>
    intro k s
    obtain ⟨L, hL⟩ := runC_log (r := rank k) (rec := evalC g n)
      (fun k s k' v h => C06_entries_unchanged g n k s k' v h)
      (fun k' s' hk' => by
        obtain ⟨L, hL⟩ := ih k' s'
        exact ⟨L, hL.log, hL.nodup, fun x hx => ⟨(hL.fresh x hx).1, by have := (hL.fresh x hx).2; omega⟩,
          hL.stored, hL.some⟩) (hg k) (hnn k) (s.logged k)
    have hkL : k ∉ L := fun h => by have := (hL.fresh k h).2; omega
    rw [evalC]
    split
    · exact ⟨[], by simp, by simp, by simp, by simp, by simp⟩
    · rename_i hk
      have hfresh : ∀ x ∈ k :: L, s.get x = none ∧ rank x < rank k + 1 := by
        intro x hx
        rcases List.mem_cons.mp hx with rfl | hx
        · exact ⟨hk, by omega⟩
        · exact ⟨(hL.fresh x hx).1, by have := (hL.fresh x hx).2; omega⟩
      split
      · rename_i s' v heq
        rw [heq] at hL
        refine ⟨k :: L, ?_, ?_, hfresh, ?_, hL.some⟩
        · show s'.log = _
          rw [hL.log]; simp [State.logged]
        · exact List.nodup_cons.mpr ⟨hkL, hL.nodup⟩
        · intro w hw x hx
          unfold State.get State.set
          dsimp only
          split
          · have := hL.some
            dsimp only at this
            cases v with
            | none => exact absurd rfl this
            | some v => simp
          · rename_i hne
            rcases List.mem_cons.mp hx with rfl | hx
            · exact absurd rfl hne
            · exact hL.stored v rfl x hx
      · rename_i s' e heq
        rw [heq] at hL
        refine ⟨k :: L, ?_, ?_, hfresh, by simp, by simp⟩
        · show s'.log = _
          rw [hL.log]; simp [State.logged]
        · exact List.nodup_cons.mpr ⟨hkL, hL.nodup⟩

/-- **C06, at most once.** If the decorated methods never return `None` (log_likelihood and
signed_logabs_and_sign return tensors), one call with a fresh Cache on a DAG executes the body of
every (method, module) at most once, even when it ends in an exception. -/
theorem C06_at_most_once (g : K → Comp K V) (rank : K → Nat) (hg : Acyclic g rank)
    (hnn : ∀ k, NeverNone (g k)) (n : Nat) (k : K) :
    (evalC g n k State.empty).1.log.Nodup := by
  obtain ⟨L, hL⟩ := evalC_log hg hnn n k State.empty
  rw [hL.log]
  simpa [State.empty] using hL.nodup

/-- **C06, documented hazard.** The key ignores the arguments: a Cache filled by a call on one data
set answers a later call of the same method with the old value, whatever the new data is. -/
theorem C06_stale_on_reuse (g : Graph D K V) (d d' : D) (n m : Nat) (k : K) (s : State K V) (v : V)
    (h : (evalC (g d) (n + 1) k s).2 = .val (some v)) :
    (evalC (g d') (m + 1) k (evalC (g d) (n + 1) k s).1).2 = .val (some v) := by
  have hget : (evalC (g d) (n + 1) k s).1.get k = some v := by
    rw [evalC] at h ⊢
    split at h
    · rename_i w hw
      simp only [Res.val.injEq, Option.some.injEq] at h
      subst h
      simpa [hw] using hw
    · rename_i hk
      split at h
      · rename_i s' w heq
        simp only [Res.val.injEq] at h
        subst h
        simp [State.get, State.set, heq, hk]
      · simp at h
  rw [evalC, hget]

/-! ### Schedules: threads that share one Cache -/

/-- What a stack of suspended calls would compute without the cache. -/
def unwind (g : K → Comp K V) (rank : K → Nat) :
    List (K × (Option V → Comp K V)) → K → Comp K V → Prop
  | stack, key, cur => runU (value g rank) cur = value g rank key ∧
    match stack with
    | [] => True
    | (key', cont) :: rest =>
      unwind g rank rest key' (.call key cont)

/-- The call the thread was started with. -/
def outer : List (K × (Option V → Comp K V)) → K → K
  | [], key => key
  | (key', _) :: rest, _ => outer rest key'

/-- The thread works for the call `k₀`, and is on its way to the uncached result. -/
def ThreadOK (g : K → Comp K V) (rank : K → Nat) (k₀ : K) : Thread K V → Prop
  | .done r => r = value g rank k₀
  | .running stack key cur => unwind g rank stack key cur ∧ outer stack key = k₀

omit [DecidableEq K] in
/-- An exception of the innermost call is the outcome of the outermost one. -/
theorem unwind_exn {g : K → Comp K V} {rank : K → Nat} {e : Nat} :
    ∀ (stack : List (K × (Option V → Comp K V))) (key : K) (cur : Comp K V),
      unwind g rank stack key cur → runU (value g rank) cur = .exn e →
      value g rank (outer stack key) = .exn e := by
  intro stack
  induction stack with
  | nil => intro key cur h he; rw [unwind] at h; rw [outer, ← h.1, he]
  | cons kc rest ih =>
    obtain ⟨key', cont⟩ := kc
    intro key cur h he
    rw [unwind] at h
    rw [outer]
    refine ih key' _ h.2 ?_
    rw [runU, ← h.1, he]

omit [DecidableEq K] in
theorem unwind_cur {g : K → Comp K V} {rank : K → Nat} {stack : List (K × (Option V → Comp K V))}
    {key : K} {cur cur' : Comp K V} (h : unwind g rank stack key cur)
    (he : runU (value g rank) cur' = runU (value g rank) cur) : unwind g rank stack key cur' := by
  cases stack with
  | nil => rw [unwind] at h ⊢; exact ⟨he.trans h.1, h.2⟩
  | cons kc rest =>
    obtain ⟨key', cont⟩ := kc
    rw [unwind] at h ⊢
    exact ⟨he.trans h.1, h.2⟩

theorem step_ok {g : K → Comp K V} {rank : K → Nat} (hg : Acyclic g rank) {k₀ : K}
    {t : Thread K V} {s : State K V} (ht : ThreadOK g rank k₀ t) (hs : Consistent g rank s) :
    ThreadOK g rank k₀ (t.step g s).1 ∧ Consistent g rank (t.step g s).2 := by
  cases t with
  | done r => exact ⟨ht, hs⟩
  | running stack key cur =>
    obtain ⟨hu, ho⟩ := ht
    cases cur with
    | raise e =>
      refine ⟨?_, hs⟩
      show Res.exn e = value g rank k₀
      rw [← ho, unwind_exn stack key _ hu rfl]
    | ret v =>
      cases stack with
      | nil =>
        rw [unwind] at hu
        refine ⟨?_, hs.set hu.1.symm⟩
        show Res.val v = value g rank k₀
        rw [← ho, outer, ← hu.1, runU]
      | cons kc rest =>
        obtain ⟨key', cont⟩ := kc
        rw [unwind] at hu
        refine ⟨⟨unwind_cur hu.2 ?_, ?_⟩, hs.set hu.1.symm⟩
        · have hk : value g rank key = .val v := hu.1.symm
          simp only [runU, hk]
        · rw [outer] at ho; exact ho
    | call k cont =>
      simp only [Thread.step]
      split
      · rename_i v hv
        refine ⟨⟨unwind_cur hu ?_, ho⟩, hs⟩
        rw [runU, hs k v hv]
      · refine ⟨⟨?_, by rw [outer]; exact ho⟩, hs⟩
        rw [unwind]
        exact ⟨(value_unfold hg k).symm, hu⟩

/-- **C06, under every schedule.** Threads that evaluate any calls on the same data with one shared
Cache, interleaved in any way at the granularity of single cache reads and writes, each end with
the uncached result of their call. (Two threads may then both execute the same body.) -/
theorem C06_any_schedule (g : K → Comp K V) (rank : K → Nat) (hg : Acyclic g rank)
    (start : Nat → K) (sched : List Nat) (i : Nat) (r : Res V)
    (hdone : (runSchedule g sched (fun j => .running [] (start j) (g (start j))) State.empty).1 i
      = .done r) :
    r = value g rank (start i) := by
  have key : ∀ (sched : List Nat) (ts : Nat → Thread K V) (s : State K V),
      (∀ j, ThreadOK g rank (start j) (ts j)) → Consistent g rank s →
      ∀ j, ThreadOK g rank (start j) ((runSchedule g sched ts s).1 j) := by
    intro sched
    induction sched with
    | nil => intro ts s ht _; exact ht
    | cons a as ih =>
      intro ts s ht hs
      obtain ⟨h1, h2⟩ := step_ok hg (ht a) hs
      rw [runSchedule]
      refine ih _ _ ?_ h2
      intro j
      split
      · rename_i hj; subst hj; exact h1
      · exact ht j
  have h := key sched (fun j => .running [] (start j) (g (start j))) State.empty
    (fun j => ⟨by rw [unwind]; exact ⟨(value_unfold hg (start j)).symm, trivial⟩, rfl⟩)
    (by intro k v h; simp [State.get, State.empty] at h) i
  rw [hdone] at h
  exact h

/-! ### Non-vacuity and the role of `None` -/

/-- A diamond: 3 calls 1 and 2, both call 0. Data is a number returned by 0. -/
def diamond : Graph Nat Nat Nat := fun d k =>
  match k with
  | 0 => .ret (some d)
  | 1 => .call 0 fun v => .ret (v.map (· + 1))
  | 2 => .call 0 fun v => .ret (v.map (· * 10))
  | 3 => .call 1 fun a => .call 2 fun b => .ret (some (a.getD 0 + b.getD 0))
  | _ => .raise 7

example : (evalC (diamond 4) 10 3 State.empty).2 = .val (some 45) ∧
    (evalC (diamond 4) 10 3 State.empty).1.log = [3, 1, 0, 2] := by decide

theorem diamond_acyclic (d : Nat) : Acyclic (diamond d) id := by
  intro k
  unfold diamond
  split
  · exact .ret _
  · exact .call _ _ (by decide) (fun _ => .ret _)
  · exact .call _ _ (by decide) (fun _ => .ret _)
  · exact .call _ _ (by decide) (fun _ => .call _ _ (by decide) (fun _ => .ret _))
  · exact .raise _

/-- a NeverNone variant of the diamond -/
def diamond' : Nat → Comp Nat Nat := fun k =>
  match k with
  | 0 => .ret (some 4)
  | 1 => .call 0 fun v => .ret (some (v.getD 0 + 1))
  | 2 => .call 0 fun v => .ret (some (v.getD 0 * 10))
  | 3 => .call 1 fun a => .call 2 fun b => .ret (some (a.getD 0 + b.getD 0))
  | _ => .raise 7

example : ∀ k, NeverNone (diamond' k) := by
  intro k
  unfold diamond'
  split
  · exact .ret _
  · exact .call _ _ fun _ => .ret _
  · exact .call _ _ fun _ => .ret _
  · exact .call _ _ fun _ => .call _ _ fun _ => .ret _
  · exact .raise _

/-- two threads on the diamond, interleaved so that both miss node 0: both are right -/
example : (runSchedule (diamond 4) [0, 1, 0, 1, 0, 1, 0, 1, 0, 0, 0, 0, 1, 1, 1, 1, 1, 1]
    (fun _ => .running [] 3 (diamond 4 3)) State.empty).2.log.count 0 = 2 := by decide

/-- **At most once is false for methods that may return `None`** - `Cache.get` cannot tell a stored
`None` from a missing entry: the shared node is executed once per parent. -/
theorem C06_none_is_recomputed :
    ∃ g : Nat → Comp Nat Nat, Acyclic g id ∧
      (evalC g 10 3 State.empty).1.log = [3, 1, 0, 2, 0] :=
  ⟨fun k => match k with
    | 0 => .ret none
    | 1 => .call 0 fun _ => .ret none
    | 2 => .call 0 fun _ => .ret none
    | 3 => .call 1 fun _ => .call 2 fun _ => .ret none
    | _ => .raise 7,
   by
    intro k
    dsimp only
    split
    · exact .ret _
    · exact .call _ _ (by decide) (fun _ => .ret _)
    · exact .call _ _ (by decide) (fun _ => .ret _)
    · exact .call _ _ (by decide) (fun _ => .call _ _ (by decide) (fun _ => .ret _))
    · exact .raise _,
   by decide⟩

end Verif.CacheM

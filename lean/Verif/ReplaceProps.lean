import Verif.Replace
/-
C07: `with replace(...)` restores every class attribute.
-/
namespace Verif.Replace

/-- The references and replacement functions a program uses are resolvable only to classes that
define the method themselves. -/
def Prog.Fine (ok : Cls → Attr → Prop) : Prog → Prop
  | .code _ => True
  | .seq p q | .ite _ p q | .tryExcept p q | .tryFinally p q => p.Fine ok ∧ q.Fine ok
  | .withReplace r g body =>
    (match r with
      | .attr _ _ => True
      | .obj s => ∀ c a, extract s = .ok (c, a) → ok c a) ∧
    (∀ c, g.owner = some c → ok c g.name) ∧ body.Fine ok

/-- Every method a program can refer to was written as an ordinary `def` in the class body its
`__qualname__` names (what is missing from the full C07: staticmethods, classmethods and
overlapping, non-nested blocks - for which it is false, see below). Formally: `ok` marks the
(class, attribute) places that method references resolve to.
Every resolvable function object stored in some class dictionary resolves into `ok`, and `ok`
places hold plain functions. -/
structure Good (ok : Cls → Attr → Prop) (mro : Cls → List Cls) (h : Heap) : Prop where
  self_first : ∀ c, (mro c).head? = some c
  plain : ∀ c a, ok c a → ∃ f, h c a = some (.fn f)
  resolves : ∀ d b s, h d b = some s → ∀ c, s.func.owner = some c → ok c s.func.name

theorem lookup_own {mro : Cls → List Cls} (hm : ∀ c, (mro c).head? = some c) {h : Heap} {c : Cls}
    {a : Attr} {s : Slot} (hs : h c a = some s) : lookup mro h c a = some s := by
  unfold lookup
  have := hm c
  cases hl : mro c with
  | nil => rw [hl] at this; simp at this
  | cons x xs =>
    rw [hl] at this
    simp only [List.head?_cons, Option.some.injEq] at this
    subst this
    simp [hs]

theorem getattr_own {mro : Cls → List Cls} (hm : ∀ c, (mro c).head? = some c) {h : Heap} {c : Cls}
    {a : Attr} {f : Func} (hs : h c a = some (.fn f)) : getattr mro h c a = some (.fn f) := by
  simp [getattr, lookup_own hm hs]

theorem getattr_func {mro : Cls → List Cls} {h : Heap} {c : Cls} {a : Attr} {s : Slot}
    (hs : getattr mro h c a = some s) : ∃ d s', h d a = some s' ∧ s'.func = s.func := by
  unfold getattr lookup at hs
  simp only [Option.map_eq_some_iff] at hs
  obtain ⟨s', hs', he⟩ := hs
  obtain ⟨d, _, hd⟩ := List.exists_of_findSome?_eq_some hs'
  refine ⟨d, s', hd, ?_⟩
  cases s' <;> simp at he <;> subst he <;> rfl

theorem Good.set {ok : Cls → Attr → Prop} {mro : Cls → List Cls} {h : Heap} (hg : Good ok mro h)
    {c : Cls} {a : Attr} {g : Func} (hgo : ∀ c, g.owner = some c → ok c g.name) :
    Good ok mro (h.set c a (.fn g)) where
  self_first := hg.self_first
  plain := by
    intro c' a' hok
    unfold Heap.set
    split
    · exact ⟨g, rfl⟩
    · exact hg.plain c' a' hok
  resolves := by
    intro d b s hs c' hc'
    unfold Heap.set at hs
    split at hs
    · simp only [Option.some.injEq] at hs
      subst hs
      exact hgo c' hc'
    · exact hg.resolves d b s hs c' hc'

/-- Entering succeeds only at a place holding a plain function, which is what is saved. -/
theorem enter_spec {ok : Cls → Attr → Prop} {mro : Cls → List Cls} {h : Heap} (hg : Good ok mro h)
    {r : Ref} {g : Func}
    (hr : match r with
      | .attr _ _ => True
      | .obj s => ∀ c a, extract s = .ok (c, a) → ok c a)
    {c : Cls} {a : Attr} {orig : Slot} {new : Func}
    (he : enter mro h r g = .ok (c, a, orig, new)) :
    ok c a ∧ h c a = some orig ∧ (∃ f, orig = .fn f) ∧
      new = (if orig.func.layers > 0 then cached g else g) := by
  unfold enter at he
  split at he
  · simp at he
  · rename_i s hs
    split at he
    · simp at he
    · rename_i c' a' hex
      split at he
      · simp at he
      · rename_i o ho
        simp only [Except.ok.injEq, Prod.mk.injEq] at he
        obtain ⟨rfl, rfl, rfl, rfl⟩ := he
        have hok : ok c' a' := by
          cases r with
          | attr d b =>
            simp only [Ref.eval] at hs
            split at hs
            · rename_i s' hs'
              simp only [Except.ok.injEq] at hs
              subst hs
              obtain ⟨d', s'', hd', hf⟩ := getattr_func hs'
              unfold extract at hex
              split at hex
              · simp at hex
              · rename_i c'' hc''
                simp only [Except.ok.injEq, Prod.mk.injEq] at hex
                obtain ⟨rfl, rfl⟩ := hex
                rw [← hf] at hc'' ⊢
                exact hg.resolves _ _ _ hd' _ hc''
            · simp at hs
          | obj s' =>
            simp only [Ref.eval, Except.ok.injEq] at hs
            subst hs
            exact hr c' a' hex
        obtain ⟨f, hf⟩ := hg.plain c' a' hok
        have := getattr_own hg.self_first hf
        rw [ho] at this
        simp only [Option.some.injEq] at this
        subst this
        exact ⟨hok, hf, ⟨f, rfl⟩, rfl⟩

theorem set_set_restore {h : Heap} {c : Cls} {a : Attr} {v w : Slot} (hv : h c a = some v) :
    (h.set c a w).set c a v = h := by
  funext c' a'
  unfold Heap.set
  split
  · rename_i hh
    rw [hh.1, hh.2, hv]
  · rfl

/-- **C07.** Whatever a program does - any nesting of `replace` blocks over any mixture of classes,
methods and replacement functions, sequencing, branching on the current class attributes, raising,
catching - afterwards every dictionary entry of every class is what it was before. -/
theorem C07_restores_partial (ok : Cls → Attr → Prop) (mro : Cls → List Cls) (p : Prog) :
    ∀ h : Heap, Good ok mro h → p.Fine ok → (run mro p h).1 = h := by
  induction p with
  | code f => intro h _ _; rfl
  | seq p q ihp ihq =>
    intro h hg hf
    have h1 := ihp h hg hf.1
    rw [run]
    split
    · rename_i h' e heq; rw [heq] at h1; exact h1
    · rename_i h' heq; rw [heq] at h1; dsimp only at h1; rw [h1]; exact ihq h hg hf.2
  | ite b p q ihp ihq =>
    intro h hg hf
    rw [run]
    split
    · exact ihp h hg hf.1
    · exact ihq h hg hf.2
  | tryExcept p q ihp ihq =>
    intro h hg hf
    have h1 := ihp h hg hf.1
    rw [run]
    split
    · rename_i h' e heq; rw [heq] at h1; dsimp only at h1; rw [h1]; exact ihq h hg hf.2
    · rename_i h' heq; rw [heq] at h1; exact h1
  | tryFinally p q ihp ihq =>
    intro h hg hf
    have h1 := ihp h hg hf.1
    have h2 := ihq h hg hf.2
    rw [run]
    split
    rename_i h' e heq
    rw [heq] at h1
    dsimp only at h1
    subst h1
    split <;> rename_i heq2 <;> rw [heq2] at h2 <;> exact h2
  | withReplace r g body ih =>
    intro h hg hf
    rw [run]
    split
    · rfl
    · rename_i c a orig new he
      obtain ⟨_, hslot, _, hnew⟩ := enter_spec hg hf.1 he
      have hgo : ∀ c, new.owner = some c → ok c new.name := by
        intro c' hc'
        rw [hnew] at hc' ⊢
        split at hc' <;> rename_i hl
        · simp only [hl, if_true]; exact hf.2.1 c' hc'
        · simp only [hl, if_false]; exact hf.2.1 c' hc'
      have h1 := ih _ (hg.set (c := c) (a := a) hgo) hf.2.2
      split
      rename_i h' e heq
      rw [heq] at h1
      dsimp only at h1 ⊢
      rw [h1]
      exact set_set_restore hslot

/-- **C07**, as seen through attribute access: after the program, `getattr(C, a)` gives the same
object as before for every class and attribute, including subclasses. -/
theorem C07_getattr_restored_partial (ok : Cls → Attr → Prop) (mro : Cls → List Cls) (p : Prog) (h : Heap)
    (hg : Good ok mro h) (hp : p.Fine ok) (c : Cls) (a : Attr) :
    getattr mro (run mro p h).1 c a = getattr mro h c a := by
  rw [C07_restores_partial ok mro p h hg hp]

/-- Inside the block the body sees the replacement (wrapped in `cached` iff the original was), every
other class attribute is untouched, and the block neither swallows nor invents exceptions. -/
theorem C07_body_sees_replacement (ok : Cls → Attr → Prop) (mro : Cls → List Cls) (h : Heap)
    (hg : Good ok mro h) (c : Cls) (a : Attr) (f g : Func) (body : Prog)
    (hslot : h c a = some (.fn f)) (hown : f.owner = some c) (hname : f.name = a) :
    let new : Func := if f.layers > 0 then cached g else g
    let h1 : Heap := h.set c a (.fn new)
    (run mro (.withReplace (.attr c a) g body) h).2 = (run mro body h1).2 ∧
    getattr mro h1 c a = some (.fn new) ∧
    ∀ d b, (d, b) ≠ (c, a) → h1 d b = h d b := by
  intro new h1
  have he : enter mro h (.attr c a) g = .ok (c, a, .fn f, new) := by
    have hga := getattr_own hg.self_first hslot
    simp [enter, Ref.eval, extract, Slot.func, hga, hown, hname, new]
  refine ⟨?_, ?_, ?_⟩
  · rw [run, he]
  · apply getattr_own hg.self_first
    simp [h1, Heap.set]
  · intro d b hne
    have : ¬ (d = c ∧ b = a) := fun hh => hne (by rw [hh.1, hh.2])
    simp [h1, Heap.set, this]

/-! Non-vacuity: two classes, `1` a subclass of `0`; `0.m5` is `@cached`, `1.m6` is plain. -/

def exMro : Cls → List Cls := fun c => if c = 1 then [1, 0] else [c]
def exF : Func := ⟨100, 5, some 0, 1⟩
def exG : Func := ⟨101, 6, some 1, 0⟩
def exHeap : Heap := fun c a =>
  if c = 0 ∧ a = 5 then some (.fn exF) else if c = 1 ∧ a = 6 then some (.fn exG) else none
def exOk : Cls → Attr → Prop := fun c a => (c = 0 ∧ a = 5) ∨ (c = 1 ∧ a = 6)

theorem exHeap_good : Good exOk exMro exHeap where
  self_first := by
    intro c
    unfold exMro
    split
    · rename_i h; subst h; rfl
    · rfl
  plain := by
    intro c a h
    rcases h with ⟨rfl, rfl⟩ | ⟨rfl, rfl⟩
    · exact ⟨exF, rfl⟩
    · exact ⟨exG, rfl⟩
  resolves := by
    intro d b s hs c hc
    unfold exHeap at hs
    split at hs
    · simp only [Option.some.injEq] at hs; subst hs
      simp only [Slot.func, exF, Option.some.injEq] at hc
      left; exact ⟨hc.symm, rfl⟩
    · split at hs
      · simp only [Option.some.injEq] at hs; subst hs
        simp only [Slot.func, exG, Option.some.injEq] at hc
        right; exact ⟨hc.symm, rfl⟩
      · simp at hs

/-- A user function defined at module level (no dot in its qualname). -/
def exUser : Func := ⟨200, 9, none, 0⟩

/-- Nested blocks: replace the inherited `1.m5` (really `0.m5`) by `1.m6`, inside it replace `1.m6`
by a user function and raise. -/
def exProg : Prog :=
  .withReplace (.attr 1 5) exG
    (.withReplace (.attr 1 6) exUser (.code fun _ => some (.user 3)))

example : exProg.Fine exOk := by
  refine ⟨trivial, ?_, trivial, ?_, trivial⟩
  · intro c hc; simp only [exG, Option.some.injEq] at hc; right; exact ⟨hc.symm, rfl⟩
  · intro c hc; simp [exUser] at hc

/-- the exception does propagate and the replacement really was active -/
example : (run exMro exProg exHeap).2 = some (.user 3) ∧
    getattr exMro (exHeap.set 0 5 (.fn (cached exG))) 1 5 = some (.fn (cached exG)) := by
  decide

/-- **C07 is false for staticmethods** (e.g. `replace(Scope.join_all, f)`, scope.py:256-278):
`getattr` unwraps the descriptor, so `finally` stores a plain function where a staticmethod was. -/
theorem C07_staticmethod_not_restored :
    ∃ (mro : Cls → List Cls) (h : Heap) (f g : Func),
      h 0 5 = some (.static f) ∧
      (run mro (.withReplace (.attr 0 5) g (.code fun _ => none)) h).2 = none ∧
      (run mro (.withReplace (.attr 0 5) g (.code fun _ => none)) h).1 0 5 = some (.fn f) :=
  ⟨fun c => [c], fun c a => if c = 0 ∧ a = 5 then some (.static ⟨1, 5, some 0, 0⟩) else none,
    ⟨1, 5, some 0, 0⟩, exUser, by decide, by decide, by decide⟩

/-- **C07 is false for classmethods**: afterwards a method bound to the base class is stored, and a
subclass gets the base class as `cls`. -/
theorem C07_classmethod_not_restored :
    ∃ (mro : Cls → List Cls) (h : Heap) (f g : Func),
      h 0 5 = some (.classm f) ∧ getattr mro h 1 5 = some (.bound f 1) ∧
      getattr mro (run mro (.withReplace (.attr 0 5) g (.code fun _ => none)) h).1 1 5
        = some (.bound f 0) :=
  ⟨exMro, fun c a => if c = 0 ∧ a = 5 then some (.classm ⟨1, 5, some 0, 0⟩) else none,
    ⟨1, 5, some 0, 0⟩, exUser, by decide, by decide, by decide⟩

/-- **C07 is false for overlapping blocks that are not nested** (two threads or generators): enter
A, enter B, leave A, leave B leaves A's replacement installed for good, although every block has
been left and the two blocks use the same, resolvable reference. -/
theorem C07_overlapping_not_restored :
    ∃ (g₁ g₂ : Func) (r : Ref),
      runEvents exMro [.enter 1 r g₁, .enter 2 r g₂, .exit 1, .exit 2] exHeap (fun _ => none) 0 5
        = some (.fn (cached g₁)) ∧ exHeap 0 5 = some (.fn exF) ∧ cached g₁ ≠ exF :=
  ⟨exUser, exG, .obj (.fn exF), by decide, by decide, by decide⟩

/-- For properly nested histories the event semantics agrees with restoring: leaving in reverse
order is `C07_restores_partial`; one enter/exit pair around any history that restores restores. -/
theorem C07_event_pair_partial (ok : Cls → Attr → Prop) (mro : Cls → List Cls) (h : Heap)
    (hg : Good ok mro h) (i : Nat) (c : Cls) (a : Attr) (g : Func)
    (saved : Nat → Option (Cls × Attr × Slot)) (hi : saved i = none) :
    runEvents mro [.enter i (.attr c a) g, .exit i] h saved = h := by
  simp only [runEvents]
  split
  · simp [hi]
  · rename_i c' a' orig new he
    obtain ⟨_, hslot, _, _⟩ := enter_spec (r := .attr c a) hg trivial he
    simpa [runEvents] using set_set_restore (w := .fn new) hslot

end Verif.Replace

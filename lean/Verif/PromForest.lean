import Verif.PromModel

/-!
# Components, Kruskal's forest and the severed partitions
-/

namespace Verif.Prometheus

open Verif

/-- Two nodes are joined by a path of the given links. -/
abbrev Joined (R : ℕ → ℕ → Prop) (a b : ℕ) : Prop := Relation.EqvGen R a b

/-- `p` lists the connected components of the graph with nodes `0..d-1` and links `R`: every component is a non-empty strictly
increasing list of nodes, every node lies in one of them, and two nodes lie in the same component exactly when they are
joined. -/
structure Components (d : ℕ) (R : ℕ → ℕ → Prop) (p : List (List ℕ)) : Prop where
  ne : ∀ c ∈ p, c ≠ []
  sorted : ∀ c ∈ p, c.Pairwise (· < ·)
  range : ∀ c ∈ p, ∀ a ∈ c, a < d
  cover : ∀ a < d, ∃ c ∈ p, a ∈ c
  same : ∀ c ∈ p, ∀ a ∈ c, ∀ b < d, b ∈ c ↔ Joined R a b
  nodup : p.Nodup

/-- Links of an edge list. -/
def Link (es : List WEdge) (a b : ℕ) : Prop := ∃ w, (a, b, w) ∈ es

theorem Link.mono {es es' : List WEdge} (h : ∀ e ∈ es, e ∈ es') {a b : ℕ} (hl : Link es a b) : Link es' a b := by
  obtain ⟨w, hw⟩ := hl
  exact ⟨w, h _ hw⟩

theorem joined_mono {R S : ℕ → ℕ → Prop} (h : ∀ a b, R a b → S a b) {a b : ℕ} (hj : Joined R a b) : Joined S a b :=
  Relation.EqvGen.mono h _ _ hj

theorem joined_of {R S : ℕ → ℕ → Prop} (h : ∀ a b, R a b → Joined S a b) {a b : ℕ} (hj : Joined R a b) : Joined S a b := by
  induction hj with
  | rel a b hab => exact h a b hab
  | refl a => exact .refl a
  | symm a b _ ih => exact .symm _ _ ih
  | trans a b c _ _ ih1 ih2 => exact .trans _ _ _ ih1 ih2

theorem label_append (es : List WEdge) (e : WEdge) : label (es ++ [e]) = merge (label es) e := by
  simp [label]

theorem label_nil (x : ℕ) : label [] x = x := rfl

/-- Nodes have the same label exactly when they are joined. -/
theorem label_eq_iff (es : List WEdge) : ∀ a b, label es a = label es b ↔ Joined (Link es) a b := by
  induction es using List.reverseRecOn with
  | nil =>
    intro a b
    constructor
    · intro h; rw [show a = b from h]; exact .refl _
    · intro h
      show a = b
      induction h with
      | rel a b hab => obtain ⟨w, hw⟩ := hab; simp at hw
      | refl a => rfl
      | symm a b _ ih => exact ih.symm
      | trans a b c _ _ ih1 ih2 => exact ih1.trans ih2
  | append_singleton es e ih =>
    obtain ⟨u, v, w⟩ := e
    have hmono : ∀ {a b}, Joined (Link es) a b → Joined (Link (es ++ [(u, v, w)])) a b :=
      fun h => joined_mono (fun _ _ => Link.mono (by simp +contextual)) h
    have huv : Joined (Link (es ++ [(u, v, w)])) u v := .rel _ _ ⟨w, by simp⟩
    have key : ∀ a b, label (es ++ [(u, v, w)]) a = label (es ++ [(u, v, w)]) b ↔
        (label es a = label es b ∨ ((label es a = label es u ∨ label es a = label es v) ∧
          (label es b = label es u ∨ label es b = label es v))) := by
      intro a b
      rw [label_append]
      simp only [merge]
      rcases Nat.le_total (label es u) (label es v) with hm | hm
      · rw [min_eq_left hm]
        split_ifs with h1 h2 h2 <;> omega
      · rw [min_eq_right hm]
        split_ifs with h1 h2 h2 <;> omega
    intro a b
    rw [key]
    constructor
    · rintro (h | ⟨ha, hb⟩)
      · exact hmono ((ih a b).1 h)
      · have h1 : Joined (Link (es ++ [(u, v, w)])) a u := by
          rcases ha with ha | ha
          · exact hmono ((ih a u).1 ha)
          · exact .trans _ _ _ (hmono ((ih a v).1 ha)) (.symm _ _ huv)
        have h2 : Joined (Link (es ++ [(u, v, w)])) b u := by
          rcases hb with hb | hb
          · exact hmono ((ih b u).1 hb)
          · exact .trans _ _ _ (hmono ((ih b v).1 hb)) (.symm _ _ huv)
        exact .trans _ _ _ h1 (.symm _ _ h2)
    · intro h
      induction h with
      | rel a b hab =>
        obtain ⟨w', hw⟩ := hab
        rw [List.mem_append, List.mem_singleton] at hw
        rcases hw with hw | hw
        · exact Or.inl ((ih a b).2 (.rel _ _ ⟨w', hw⟩))
        · obtain ⟨rfl, rfl, rfl⟩ : a = u ∧ b = v ∧ w' = w := by simpa using hw
          exact Or.inr ⟨Or.inl rfl, Or.inr rfl⟩
      | refl a => exact Or.inl rfl
      | symm a b _ ih => omega
      | trans a b c _ _ ih1 ih2 => omega

theorem label_le (es : List WEdge) : ∀ a, label es a ≤ a := by
  induction es using List.reverseRecOn with
  | nil => intro a; exact le_rfl
  | append_singleton es e ih =>
    intro a
    rw [label_append]
    simp only [merge]
    have := ih a
    split_ifs with h <;> omega

theorem joined_label (es : List WEdge) : ∀ a, Joined (Link es) a (label es a) := by
  induction es using List.reverseRecOn with
  | nil => intro a; exact .refl a
  | append_singleton es e ih =>
    obtain ⟨u, v, w⟩ := e
    intro a
    have hmono : ∀ {a b}, Joined (Link es) a b → Joined (Link (es ++ [(u, v, w)])) a b :=
      fun h => joined_mono (fun _ _ => Link.mono (by simp +contextual)) h
    have huv : Joined (Link (es ++ [(u, v, w)])) u v := .rel _ _ ⟨w, by simp⟩
    rw [label_append]
    simp only [merge]
    split_ifs with h
    · have h1 : Joined (Link (es ++ [(u, v, w)])) a u := by
        rcases h with h | h
        · exact hmono ((label_eq_iff es a u).1 h)
        · exact .trans _ _ _ (hmono ((label_eq_iff es a v).1 h)) (.symm _ _ huv)
      rcases Nat.le_total (label es u) (label es v) with hm | hm
      · rw [min_eq_left hm]
        exact .trans _ _ _ h1 (hmono (ih u))
      · rw [min_eq_right hm]
        exact .trans _ _ _ (.trans _ _ _ h1 huv) (hmono (ih v))
    · exact hmono (ih a)

theorem label_label (es : List WEdge) (a : ℕ) : label es (label es a) = label es a :=
  ((label_eq_iff es a _).2 (joined_label es a)).symm

theorem label_congr {es es' : List WEdge} (h : ∀ a b, Joined (Link es) a b ↔ Joined (Link es') a b) (a : ℕ) :
    label es a = label es' a := by
  apply le_antisymm
  · have h1 : label es a = label es (label es' a) := (label_eq_iff es _ _).2 ((h _ _).2 (joined_label es' a))
    rw [h1]; exact label_le _ _
  · have h1 : label es' a = label es' (label es a) := (label_eq_iff es' _ _).2 ((h _ _).1 (joined_label es a))
    rw [h1]; exact label_le _ _

theorem comps_congr {es es' : List WEdge} (h : ∀ a b, Joined (Link es) a b ↔ Joined (Link es') a b) (d : ℕ) :
    comps d es = comps d es' := by
  have := funext fun a => label_congr h a
  unfold comps
  rw [this]

theorem mem_comps {d : ℕ} {es : List WEdge} {c : List ℕ} :
    c ∈ comps d es ↔ ∃ r < d, label es r = r ∧ c = (List.range d).filter fun x => label es x = r := by
  simp only [comps, List.mem_map, List.mem_filter, List.mem_range, decide_eq_true_eq]
  constructor
  · rintro ⟨r, ⟨h1, h2⟩, rfl⟩; exact ⟨r, h1, h2, rfl⟩
  · rintro ⟨r, h1, h2, rfl⟩; exact ⟨r, ⟨h1, h2⟩, rfl⟩

/-- `comps` lists the connected components. -/
theorem comps_spec (d : ℕ) (es : List WEdge) : Components d (Link es) (comps d es) where
  ne := by
    intro c hc
    obtain ⟨r, hr, hl, rfl⟩ := mem_comps.1 hc
    exact List.ne_nil_of_mem (a := r) (by simp [hr, hl])
  sorted := by
    intro c hc
    obtain ⟨r, hr, hl, rfl⟩ := mem_comps.1 hc
    exact List.Pairwise.filter _ List.pairwise_lt_range
  range := by
    intro c hc a ha
    obtain ⟨r, hr, hl, rfl⟩ := mem_comps.1 hc
    exact List.mem_range.1 (List.mem_filter.1 ha).1
  cover := by
    intro a ha
    refine ⟨(List.range d).filter fun x => label es x = label es a, mem_comps.2 ⟨label es a, ?_, label_label es a, rfl⟩, ?_⟩
    · exact lt_of_le_of_lt (label_le es a) ha
    · simp [ha]
  same := by
    intro c hc a ha b hb
    obtain ⟨r, hr, hl, rfl⟩ := mem_comps.1 hc
    have ha' := (List.mem_filter.1 ha).2
    rw [← label_eq_iff]
    simp only [decide_eq_true_eq] at ha'
    simp only [List.mem_filter, List.mem_range, decide_eq_true_eq]
    omega
  nodup := by
    unfold comps
    rw [List.nodup_map_iff_inj_on (List.Nodup.filter _ List.nodup_range)]
    intro r hr r' hr' h
    simp only [List.mem_filter, List.mem_range, decide_eq_true_eq] at hr hr'
    have : r ∈ (List.range d).filter fun x => label es x = r' := by
      rw [← h]; simp [hr]
    simp only [List.mem_filter, decide_eq_true_eq] at this
    omega

/-! ## Counting components -/

theorem comps_length (d : ℕ) (es : List WEdge) :
    (comps d es).length = ((Finset.range d).filter fun v => label es v = v).card := by
  unfold comps
  rw [List.length_map]
  rfl

theorem comps_nil (d : ℕ) : (comps d []).length = d := by
  simp [comps, label_nil]

theorem comps_append_joined {d : ℕ} {es : List WEdge} {e : WEdge} (h : Joined (Link es) e.1 e.2.1) :
    comps d (es ++ [e]) = comps d es := by
  refine comps_congr (fun a b => ⟨fun hj => joined_of (fun a b hl => ?_) hj, fun hj => joined_mono (fun _ _ =>
    Link.mono (by simp +contextual)) hj⟩) d
  obtain ⟨w, hw⟩ := hl
  rw [List.mem_append, List.mem_singleton] at hw
  rcases hw with hw | rfl
  · exact .rel _ _ ⟨w, hw⟩
  · exact h

theorem comps_append_new {d : ℕ} {es : List WEdge} {e : WEdge} (h1 : e.1 < d) (h2 : e.2.1 < d)
    (h : ¬ Joined (Link es) e.1 e.2.1) : (comps d (es ++ [e])).length + 1 = (comps d es).length := by
  rw [comps_length, comps_length]
  have hne : label es e.1 ≠ label es e.2.1 := fun hc => h ((label_eq_iff _ _ _).1 hc)
  have e1 : ((Finset.range d).filter fun v => label (es ++ [e]) v = v) =
      ((Finset.range d).filter fun v => label es v = v).erase (max (label es e.1) (label es e.2.1)) := by
    ext v
    simp only [Finset.mem_filter, Finset.mem_range, Finset.mem_erase, label_append, merge]
    have ha := label_label es e.1
    have hb := label_label es e.2.1
    have hv := label_le es v
    constructor
    · rintro ⟨hvd, hh⟩
      split_ifs at hh with hc
      · rcases Nat.le_total (label es e.1) (label es e.2.1) with hm | hm
        · rw [min_eq_left hm] at hh; rw [max_eq_right hm]
          refine ⟨by omega, hvd, ?_⟩
          rw [← hh, ha]
        · rw [min_eq_right hm] at hh; rw [max_eq_left hm]
          refine ⟨by omega, hvd, ?_⟩
          rw [← hh, hb]
      · refine ⟨?_, hvd, hh⟩
        rcases Nat.le_total (label es e.1) (label es e.2.1) with hm | hm
        · rw [max_eq_right hm]; rintro rfl; exact hc (Or.inr hb)
        · rw [max_eq_left hm]; rintro rfl; exact hc (Or.inl ha)
    · rintro ⟨hne', hvd, hh⟩
      refine ⟨hvd, ?_⟩
      split_ifs with hc
      · rcases Nat.le_total (label es e.1) (label es e.2.1) with hm | hm
        · rw [max_eq_right hm] at hne'; rw [min_eq_left hm]; omega
        · rw [max_eq_left hm] at hne'; rw [min_eq_right hm]; omega
      · exact hh
  rw [e1]
  have hmem : max (label es e.1) (label es e.2.1) ∈ ((Finset.range d).filter fun v => label es v = v) := by
    simp only [Finset.mem_filter, Finset.mem_range]
    have l1 := label_le es e.1
    have l2 := label_le es e.2.1
    refine ⟨by omega, ?_⟩
    rcases Nat.le_total (label es e.1) (label es e.2.1) with hm | hm
    · rw [max_eq_right hm]; exact label_label _ _
    · rw [max_eq_left hm]; exact label_label _ _
  rw [Finset.card_erase_of_mem hmem]
  have := Finset.card_pos.2 ⟨_, hmem⟩
  omega

theorem link_perm {es es' : List WEdge} (h : es.Perm es') (a b : ℕ) : Joined (Link es) a b ↔ Joined (Link es') a b :=
  ⟨joined_mono fun _ _ => Link.mono fun _ he => h.mem_iff.1 he, joined_mono fun _ _ => Link.mono fun _ he => h.mem_iff.2 he⟩

theorem comps_perm {es es' : List WEdge} (h : es.Perm es') (d : ℕ) : comps d es = comps d es' :=
  comps_congr (link_perm h) d

/-- Edges between nodes below `d`. -/
def In (d : ℕ) (es : List WEdge) : Prop := ∀ e ∈ es, e.1 < d ∧ e.2.1 < d

/-- No cycles: every edge lowers the number of components. -/
def Forest (d : ℕ) (es : List WEdge) : Prop := (comps d es).length + es.length = d

theorem comps_cons_le {d : ℕ} {es : List WEdge} {e : WEdge} (h : e.1 < d ∧ e.2.1 < d) :
    (comps d es).length ≤ (comps d (e :: es)).length + 1 := by
  rw [comps_perm (List.perm_append_singleton e es).symm d]
  by_cases hj : Joined (Link es) e.1 e.2.1
  · rw [comps_append_joined hj]; omega
  · have := comps_append_new h.1 h.2 hj; omega

theorem comps_ge {d : ℕ} : ∀ {es : List WEdge}, In d es → d ≤ (comps d es).length + es.length := by
  intro es
  induction es with
  | nil => intro _; rw [comps_nil]; simp
  | cons e es ih =>
    intro h
    have h1 := ih fun e he => h e (List.mem_cons_of_mem _ he)
    have h2 := comps_cons_le (es := es) (h e (by simp))
    simp only [List.length_cons]
    omega

theorem Forest.tail {d : ℕ} {e : WEdge} {es : List WEdge} (h : Forest d (e :: es)) (hin : In d (e :: es)) : Forest d es := by
  have h1 := comps_ge (d := d) (es := es) fun e he => hin e (List.mem_cons_of_mem _ he)
  have h2 := comps_cons_le (es := es) (hin e (by simp))
  unfold Forest at h ⊢
  simp only [List.length_cons] at h
  omega

theorem Forest.perm {d : ℕ} {es es' : List WEdge} (h : Forest d es) (hp : es.Perm es') : Forest d es' := by
  unfold Forest at h ⊢
  rw [← comps_perm hp, ← hp.length_eq]
  exact h

theorem Forest.nil (d : ℕ) : Forest d [] := by simp [Forest, comps_nil]

theorem Forest.append {d : ℕ} {es : List WEdge} {e : WEdge} (h : Forest d es) (h1 : e.1 < d) (h2 : e.2.1 < d)
    (hj : ¬ Joined (Link es) e.1 e.2.1) : Forest d (es ++ [e]) := by
  have := comps_append_new h1 h2 hj
  unfold Forest at h ⊢
  simp only [List.length_append, List.length_singleton]
  omega

theorem kruskal_spec {d : ℕ} : ∀ (es acc : List WEdge), In d es → In d acc → Forest d acc →
    Forest d (kruskal es acc) ∧ In d (kruskal es acc) ∧ (∀ e ∈ kruskal es acc, e ∈ acc ∨ e ∈ es) ∧
      (∃ t, kruskal es acc = acc ++ t) ∧ ∀ a b, Joined (Link (kruskal es acc)) a b ↔ Joined (Link (acc ++ es)) a b := by
  intro es
  induction es with
  | nil =>
    intro acc _ h2 h3
    simp only [kruskal, List.append_nil]
    exact ⟨h3, h2, fun e he => Or.inl he, ⟨[], by simp⟩, fun a b => by trivial⟩
  | cons e es ih =>
    intro acc h1 h2 h3
    have h1' : In d es := fun f hf => h1 f (List.mem_cons_of_mem _ hf)
    simp only [kruskal]
    split_ifs with hl
    · have hj := (label_eq_iff acc e.1 e.2.1).1 hl
      obtain ⟨a1, a2, a3, a4, a5⟩ := ih acc h1' h2 h3
      refine ⟨a1, a2, fun f hf => (a3 f hf).imp id (List.mem_cons_of_mem _), a4, fun a b => (a5 a b).trans ?_⟩
      constructor
      · exact joined_mono fun _ _ => Link.mono fun f hf => by
          rw [List.mem_append] at hf ⊢
          exact hf.imp id (List.mem_cons_of_mem _)
      · refine joined_of fun a b hl => ?_
        obtain ⟨w, hw⟩ := hl
        rw [List.mem_append, List.mem_cons] at hw
        rcases hw with hw | rfl | hw
        · exact .rel _ _ ⟨w, by simp [hw]⟩
        · exact joined_mono (fun _ _ => Link.mono (by simp +contextual)) hj
        · exact .rel _ _ ⟨w, by simp [hw]⟩
    · have hj : ¬ Joined (Link acc) e.1 e.2.1 := fun hc => hl ((label_eq_iff acc e.1 e.2.1).2 hc)
      have he := h1 e (by simp)
      obtain ⟨a1, a2, a3, ⟨t, a4⟩, a5⟩ := ih (acc ++ [e]) h1' (by
        intro f hf
        rw [List.mem_append, List.mem_singleton] at hf
        rcases hf with hf | rfl
        · exact h2 f hf
        · exact he) (h3.append he.1 he.2 hj)
      refine ⟨a1, a2, fun f hf => ?_, ⟨e :: t, by simp [a4]⟩, fun a b => (a5 a b).trans (by simp)⟩
      rcases a3 f hf with h | h
      · rw [List.mem_append, List.mem_singleton] at h
        rcases h with h | rfl
        · exact Or.inl h
        · exact Or.inr (by simp)
      · exact Or.inr (List.mem_cons_of_mem _ h)

theorem edgesOf_perm_filter (d : ℕ) (g : List WEdge) : (edgesOf d g).Perm (g.filter fun e => e.1 < d) := by
  induction d with
  | zero => simp [edgesOf]
  | succ d ih =>
    have h : edgesOf (d + 1) g = edgesOf d g ++ g.filter fun e => e.1 = d := by
      simp [edgesOf, List.range_succ]
    rw [h]
    refine (ih.append_right _).trans ?_
    have h2 := List.filter_append_perm (fun e : WEdge => decide (e.1 < d)) (g.filter fun e => decide (e.1 < d + 1))
    rw [List.filter_filter, List.filter_filter] at h2
    refine List.Perm.trans (List.Perm.of_eq ?_) h2
    congr 1
    · refine List.filter_congr fun e _ => ?_
      by_cases h : e.1 < d
      · simp [h, Nat.lt_succ_of_lt h]
      · simp [h]
    · refine List.filter_congr fun e _ => ?_
      by_cases h : e.1 = d
      · simp [h]
      · have : ¬ (e.1 < d + 1 ∧ ¬ e.1 < d) := by omega
        simp only [h, decide_false]
        symm
        simp only [Bool.and_eq_false_iff, Bool.not_eq_false', decide_eq_true_eq, decide_eq_false_iff_not]
        omega

theorem edgesOf_perm {d : ℕ} {g : List WEdge} (h : In d g) : (edgesOf d g).Perm g := by
  refine (edgesOf_perm_filter d g).trans (List.Perm.of_eq ?_)
  rw [List.filter_eq_self]
  intro e he
  simpa using (h e he).1

theorem In.perm {d : ℕ} {es es' : List WEdge} (h : In d es) (hp : es.Perm es') : In d es' := fun e he => h e (hp.mem_iff.2 he)

theorem ascending_perm (es : List WEdge) : (ascending es).Perm es := List.perm_insertionSort _ _

theorem descending_perm (es : List WEdge) : (descending es).Perm es := List.perm_insertionSort _ _

theorem In.nil (d : ℕ) : In d [] := by intro e he; simp at he

theorem maxTree_spec {d : ℕ} {g : List WEdge} (h : In d g) : Forest d (maxTree d g) ∧ In d (maxTree d g) ∧
    (∀ e ∈ maxTree d g, e ∈ g) ∧ ∀ a b, Joined (Link (maxTree d g)) a b ↔ Joined (Link g) a b := by
  have hp := (descending_perm (edgesOf d g)).trans (edgesOf_perm h)
  obtain ⟨a1, a2, a3, _, a5⟩ := kruskal_spec (d := d) (descending (edgesOf d g)) [] (h.perm hp.symm) (In.nil d) (Forest.nil d)
  refine ⟨a1, a2, fun e he => ?_, fun a b => (a5 a b).trans ?_⟩
  · rcases a3 e he with h | h
    · simp at h
    · exact hp.mem_iff.1 h
  · rw [List.nil_append]; exact link_perm hp a b

end Verif.Prometheus

import Verif.QpcBuild
import Verif.GraphProps
/-
C82: the heights of the regions.
-/
namespace Verif.Qpc
open Finset Graph

/-- Specification: `hgt` is the height function on the listed regions: 0 for regions without partitions, otherwise one
more than the largest height of a child. -/
def IsHeight (g : RG) (post : List ℕ) (hgt : ℕ → ℕ) : Prop :=
  ∀ r ∈ post, (g.parts r = [] → hgt r = 0) ∧
    (g.parts r ≠ [] → (∀ c ∈ g.children r, hgt c < hgt r) ∧ ∃ c ∈ g.children r, hgt r = hgt c + 1)

theorem heights_ok {g : RG} : ∀ {post : List ℕ}, post.Nodup → ChildrenFirst g.children post →
    (∀ r ∈ post, ∀ p ∈ g.parts r, p ≠ []) →
    ∃ hgt, heights g post = .ok (fun r => if r ∈ post then some (hgt r) else none) ∧ IsHeight g post hgt := by
  intro post
  induction post using List.reverseRecOn with
  | nil => exact fun _ _ _ => ⟨fun _ => 0, by unfold heights; simp [pure, Except.pure], by intro r hr; simp at hr⟩
  | append_singleton post r ih =>
    intro hn hcf hp
    have hn' : post.Nodup := (List.nodup_append.1 hn).1
    have hr : r ∉ post := fun h => (List.nodup_append.1 hn).2.2 r h r (by simp) rfl
    have hcf' : ChildrenFirst g.children post := fun l1 x l2 e c hc =>
      hcf l1 x (l2 ++ [r]) (by rw [e]; simp) c hc
    have hch : ∀ c ∈ g.children r, c ∈ post := hcf post r [] rfl
    obtain ⟨hgt, h1, h2⟩ := ih hn' hcf' fun r' hr' => hp r' (by simp [hr'])
    have hold : ∀ n, IsHeight g post (Function.update hgt r n) := by
      intro n r' hr'
      have hne : r' ≠ r := fun e => hr (e ▸ hr')
      obtain ⟨l1, l2, e⟩ := List.append_of_mem hr'
      have hcr : ∀ c ∈ g.children r', c ≠ r := by
        rintro c hc rfl
        exact hr (e ▸ List.mem_append_left _ (hcf' l1 r' l2 e c hc))
      obtain ⟨a, b⟩ := h2 r' hr'
      refine ⟨fun hl => by rw [Function.update_of_ne hne]; exact a hl, fun hl => ?_⟩
      obtain ⟨b1, c, hc, b2⟩ := b hl
      refine ⟨fun c hc => ?_, c, hc, ?_⟩
      · rw [Function.update_of_ne hne, Function.update_of_ne (hcr c hc)]
        exact b1 c hc
      · rw [Function.update_of_ne hne, Function.update_of_ne (hcr c hc)]
        exact b2
    have hfun : ∀ n, Function.update (fun r => if r ∈ post then some (hgt r) else none) r (some n) =
        fun r' => if r' ∈ post ++ [r] then some (Function.update hgt r n r') else none := by
      intro n
      funext r'
      by_cases e : r' = r
      · subst e; simp
      · rw [Function.update_of_ne e, Function.update_of_ne e]
        simp [e]
    have hstep : heights g (post ++ [r]) =
        if (g.parts r).isEmpty then .ok (Function.update (fun r => if r ∈ post then some (hgt r) else none) r (some 0))
        else match (g.children r).mapM (fun r => if r ∈ post then some (hgt r) else none) with
          | none => .error .keyError
          | some [] => .error .valueError
          | some (d :: ds) => .ok (Function.update (fun r => if r ∈ post then some (hgt r) else none) r
              (some (1 + ds.foldl max d))) := by
      unfold heights at h1 ⊢
      rw [List.foldlM_append, h1]
      simp only [List.foldlM_cons, List.foldlM_nil, bind_pure]
      rfl
    by_cases hl : g.parts r = []
    · refine ⟨Function.update hgt r 0, ?_, ?_⟩
      · rw [hstep, hl]
        simp only [List.isEmpty_nil, if_true]
        rw [hfun]
      · intro r' hr'
        rcases List.mem_append.1 hr' with h | h
        · exact hold 0 r' h
        · rw [List.mem_singleton.1 h]
          exact ⟨fun _ => by simp, fun h => absurd hl h⟩
    · have hm : (g.children r).mapM (fun r => if r ∈ post then some (hgt r) else none) =
          some ((g.children r).map hgt) := mapM_some fun c hc => by simp [hch c hc]
      have hcne : g.children r ≠ [] := by
        obtain ⟨p, hpm⟩ := List.exists_mem_of_ne_nil _ hl
        obtain ⟨c, hc⟩ := List.exists_mem_of_ne_nil _ (hp r (by simp) p hpm)
        exact List.ne_nil_of_mem (List.mem_flatten.2 ⟨p, hpm, hc⟩)
      obtain ⟨c0, cs, hcs⟩ := List.exists_cons_of_ne_nil hcne
      obtain ⟨M, hM⟩ : ∃ M, M = (cs.map hgt).foldl max (hgt c0) := ⟨_, rfl⟩
      have hub : ∀ c ∈ g.children r, hgt c ≤ M := by
        intro c hc
        rw [hcs] at hc
        rw [hM]
        refine foldl_max_le ?_
        rcases List.mem_cons.1 hc with e | e
        · right; rw [e]
        · left; exact List.mem_map.2 ⟨c, e, rfl⟩
      have hat : ∃ c ∈ g.children r, M = hgt c := by
        rcases foldl_max_mem (l := cs.map hgt) (b := hgt c0) with e | e
        · exact ⟨c0, by rw [hcs]; simp, by rw [hM, e]⟩
        · obtain ⟨c, hc, e2⟩ := List.mem_map.1 e
          exact ⟨c, by rw [hcs]; simp [hc], by rw [hM, e2]⟩
      refine ⟨Function.update hgt r (1 + M), ?_, ?_⟩
      · rw [hstep, if_neg (by simpa using hl), hm, hcs]
        simp only [List.map_cons]
        rw [hfun, hM]
      · intro r' hr'
        rcases List.mem_append.1 hr' with h | h
        · exact hold _ r' h
        · rw [List.mem_singleton.1 h]
          have hcr : ∀ c ∈ g.children r, c ≠ r := fun c hc e => hr (e ▸ hch c hc)
          refine ⟨fun h => absurd h hl, fun _ => ⟨fun c hc => ?_, ?_⟩⟩
          · rw [Function.update_self, Function.update_of_ne (hcr c hc)]
            have := hub c hc
            omega
          · obtain ⟨c, hc, e⟩ := hat
            refine ⟨c, hc, ?_⟩
            rw [Function.update_self, Function.update_of_ne (hcr c hc)]
            omega

theorem maxHeight_eq {post : List ℕ} {hgt : ℕ → ℕ} {root : ℕ} (hr : root ∈ post)
    (hmax : ∀ r ∈ post, hgt r ≤ hgt root) :
    maxHeight (fun r => if r ∈ post then some (hgt r) else none) post = hgt root := by
  unfold maxHeight
  have e : post.filterMap (fun r => if r ∈ post then some (hgt r) else none) = post.map hgt := by
    rw [← List.filterMap_eq_map]
    refine List.filterMap_congr fun r h => ?_
    simp [h]
  rw [e]
  refine le_antisymm ?_ (foldl_max_le (.inl (List.mem_map.2 ⟨root, hr, rfl⟩)))
  rcases foldl_max_mem (l := post.map hgt) (b := 0) with h | h
  · omega
  · obtain ⟨r, h1, h2⟩ := List.mem_map.1 h
    rw [← h2]
    exact hmax r h1

/-- The root is the only region of largest height. -/
theorem height_root {g : RG} {post : List ℕ} {hgt : ℕ → ℕ} {root : ℕ} (hh : IsHeight g post hgt)
    (hreach : ∀ x, x ∈ post ↔ Reach g.children root x) : ∀ r ∈ post, hgt r ≤ hgt root ∧ (hgt r = hgt root → r = root) := by
  intro r hr
  have h := (hreach r).1 hr
  clear hr
  induction h with
  | refl => exact ⟨le_rfl, fun _ => rfl⟩
  | @tail b c hb hbc ih =>
    have hbp : b ∈ post := (hreach b).2 hb
    have hc : c ∈ g.children b := hbc
    have hne : g.parts b ≠ [] := by
      intro e
      unfold RG.children at hc
      rw [e] at hc
      simp at hc
    have := ((hh b hbp).2 hne).1 c hc
    have := ih.1
    exact ⟨by omega, fun e => by omega⟩

end Verif.Qpc

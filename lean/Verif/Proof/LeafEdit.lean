import Verif.Proof.Regroup

/-!
# Changing the leaves of one leaf parent
-/

namespace GB
variable {E C D : Type}
open Tree

/-- `s'` arises from `s` by changing the leaf children of `p`. -/
structure LeafEdit (s s' : Tree E C) (p : Nat) : Prop where
  root : s'.root = s.root
  items : s'.inn.items.length = s.inn.items.length
  lnk : ∀ y, lnk s' y = lnk s y
  chs : ∀ y, y ≠ p → chs s' y = chs s y
  kid : ∀ a ∈ kids s' p, ∃ l, a = .leaf l ∧ lpar s' l = some p ∧ (lpar s l = none ∨ .leaf l ∈ kids s p)
  nodup : (kids s' p).Nodup
  gone : ∀ l, .leaf l ∈ kids s p → .leaf l ∉ kids s' p → lpar s' l = none
  frame : ∀ l, .leaf l ∉ kids s p → .leaf l ∉ kids s' p → lpar s' l = lpar s l

namespace LeafEdit
variable {s s' : Tree E C} {lvl : Nat → Nat} {h p : Nat}

theorem kids_ne (r : LeafEdit s s' p) {y : Nat} (hy : y ≠ p) : kids s' y = kids s y := by
  rw [kids_chs, kids_chs, r.chs y hy]

theorem wf (r : LeafEdit s s' p) (w : WF s lvl h) (hp : GB.lnk s p ≠ none) (hl : lvl p = 1) : WF s' lvl h := by
  have kidp : ∀ l, .leaf l ∈ kids s p → ∀ q j, Edge s q j (.leaf l) → q = p := by
    intro y hy q j hj
    obtain ⟨i, hi⟩ := mem_kids.mp hy
    exact (w.kid_inj hj hi).1
  refine WF.of_views ?_ ?_ w.h_pos ?_ ?_ ?_ ?_ ?_ ?_ ?_
  · rw [r.root, r.lnk]; exact w.root'
  · rw [r.root]; exact w.root_lvl
  · rw [r.items]; exact w.h_le
  · intro q i y he
    by_cases hq : q = p
    · subst hq
      obtain ⟨l, hl, -⟩ := r.kid _ (mem_kids.mpr ⟨i, he⟩)
      cases hl
    · have he0 : Edge s q i (.internal y) := by rw [Edge, ← r.kids_ne hq]; exact he
      rw [r.lnk]
      exact w.kin he0
  · intro q i l he
    by_cases hq : q = p
    · subst hq
      obtain ⟨l, hl, hlp, -⟩ := r.kid _ (mem_kids.mpr ⟨i, he⟩)
      cases hl
      exact ⟨‹_›, hlp⟩
    · have he0 : Edge s q i (.leaf l) := by rw [Edge, ← r.kids_ne hq]; exact he
      have e1 := w.klf he0
      refine ⟨e1.1, ?_⟩
      have hn : .leaf l ∉ kids s p := fun hm => hq (kidp l hm q i he0)
      rw [r.frame l hn, e1.2]
      intro hm
      obtain ⟨l, hl, hlp, h1⟩ := r.kid _ hm
      cases hl
      rcases h1 with h1 | h1
      · rw [e1.2] at h1; cases h1
      · exact hn h1
  · intro q i j l he he2
    by_cases hq : q = p
    · subst hq
      have nd := r.nodup
      rw [List.Nodup, List.pairwise_iff_getElem] at nd
      have hi := (List.getElem?_eq_some_iff.mp he)
      have hj := (List.getElem?_eq_some_iff.mp he2)
      apply Decidable.byContradiction
      intro hne
      rcases Nat.lt_or_gt_of_ne hne with hlt | hlt
      · exact nd i j hi.1 hj.1 hlt (hi.2.trans hj.2.symm)
      · exact nd j i hj.1 hi.1 hlt (hj.2.trans hi.2.symm)
    · have he0 : Edge s q i (.leaf l) := by rw [Edge, ← r.kids_ne hq]; exact he
      have he1 : Edge s q j (.leaf l) := by rw [Edge, ← r.kids_ne hq]; exact he2
      exact w.uniq q i j l he0 he1
  · intro q hq
    rw [r.lnk] at hq
    exact w.lvl_pos' hq
  · intro y hy hr
    rw [r.lnk] at hy
    rw [r.root] at hr
    obtain ⟨q, i, he⟩ := w.par_in' hy hr
    refine ⟨q, i, ?_⟩
    have hq : q ≠ p := by
      intro e
      subst e
      have := (w.kin he).1
      have := (w.lvl_pos' hy).1
      omega
    rw [Edge, r.kids_ne hq]
    exact he
  · intro l hlive
    by_cases h1 : Idx.leaf l ∈ kids s' p
    · obtain ⟨i, hi⟩ := mem_kids.mp h1
      exact ⟨p, i, hi⟩
    · by_cases h2 : Idx.leaf l ∈ kids s p
      · exact absurd (r.gone l h2 h1) hlive
      · rw [r.frame l h2 h1] at hlive
        obtain ⟨q, i, he⟩ := w.par_lf' hlive
        refine ⟨q, i, ?_⟩
        have hq : q ≠ p := by
          intro e
          subst e
          exact h2 (mem_kids.mpr ⟨i, he⟩)
        rw [Edge, r.kids_ne hq]
        exact he

/-- the leaves of a leaf parent -/
def leafIds (s : Tree E C) (p : Nat) : List Nat := (kids s p).map Idx.raw

theorem leavesAt_one {s : Tree E C} {p : Nat} (hk : ∀ a ∈ kids s p, ∃ l, a = .leaf l) :
    leavesAt s 1 p = leafIds s p := by
  rw [leavesAt_succ, leafIds]
  generalize kids s p = L at hk
  induction L with
  | nil => rfl
  | cons a L ih =>
    obtain ⟨l, rfl⟩ := hk a (by simp)
    rw [List.flatMap_cons, ih (fun b hb => hk b (by simp [hb]))]
    rfl

theorem order (r : LeafEdit s s' p) (w : WF s lvl h) (hp : GB.lnk s p ≠ none) (hl : lvl p = 1) :
    ∃ u v, GB.order s = u ++ leafIds s p ++ v ∧ GB.order s' = u ++ leafIds s' p ++ v := by
  obtain ⟨u, v, h1, h2⟩ := order_context (s' := s') w (r.wf w hp hl) hp r.root (by
    intro z _ hzp _
    exact r.kids_ne hzp)
  refine ⟨u, v, ?_, ?_⟩
  · rw [h1, hl, leavesAt_one]
    intro a ha
    obtain ⟨i, hi⟩ := mem_kids.mp ha
    exact (w.kid_leaf_iff hi).mp hl
  · rw [h2, hl, leavesAt_one]
    intro a ha
    obtain ⟨l, h3, -⟩ := r.kid a ha
    exact ⟨l, h3⟩

variable {B : Trait E C D} {A : Law B}

theorem cok (r : LeafEdit s s' p) (cok : COk A s) (hnew : ∀ c ∈ GB.chs s' p, A.okC c.cache) : COk A s' := by
  intro q c hc
  by_cases hq : q = p
  · subst hq; exact hnew c hc
  · rw [r.chs q hq] at hc
    exact cok q c hc

/-- caches outside of `p` stay right, except the one of `p` itself -/
theorem cinv (r : LeafEdit s s' p) (w : WF s lvl h) {X X' : Idx → Prop} (cinv : CInv A s X)
    (hX : ∀ a, X a → X' a) (hXp : X' (.internal p))
    (hel : ∀ l e, .leaf l ∉ kids s p → GB.lpar s l ≠ none → elm s' l = some e → ¬ X' (.leaf l) → elm s l = some e)
    (hnew : ∀ c ∈ GB.chs s' p, ¬ X' c.arena → EntryOK A s' c) : CInv A s' X' := by
  intro q c hc hx
  by_cases hq : q = p
  · subst hq; exact hnew c hc hx
  · rw [r.chs q hq] at hc
    have ho := cinv q c hc (fun h => hx (hX _ h))
    obtain ⟨j, hj⟩ := List.mem_iff_getElem?.mp hc
    unfold EntryOK at *
    cases ha : c.arena with
    | leaf l =>
      rw [ha] at ho hx
      intro e he
      refine ho e (hel l e ?_ ?_ he hx)
      · intro hm
        obtain ⟨i, hi⟩ := mem_kids.mp hm
        exact hq (w.kid_lf_inj (edge_chs.mpr ⟨c, hj, ha⟩) hi).1
      · rw [(w.klf (edge_chs.mpr ⟨c, hj, ha⟩)).2]; simp
    | internal y =>
      rw [ha] at ho hx
      have hy : y ≠ p := fun e => hx (e ▸ hXp)
      simp only at ho ⊢
      rw [ho, cch, cch, r.chs y hy]

end LeafEdit

end GB

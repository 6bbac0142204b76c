import Verif.Proof.Insert

/-!
# Moving children between neighbours: the structural part
-/

namespace GB
variable {E C D : Type}
open Tree

section
variable {s s' : Tree E C} {lvl : Nat → Nat} {h p : Nat}

/-- Replacing the children `K` of `p` by some of them, `M`, which take over all grandchildren. -/
theorem regroup_block (w : WF s lvl h) (hl : 2 ≤ lvl p) {L R : List (Child C)} {Kc Mc : List (Child C)}
    (hk : chs s p = L ++ Kc ++ R) (hk' : chs s' p = L ++ Mc ++ R)
    (hM : ∀ a ∈ Mc.map Child.arena, a ∈ Kc.map Child.arena)
    (root : s'.root = s.root) (items : s'.inn.items.length = s.inn.items.length)
    (helm : ∀ l, elm s' l = elm s l) (lnkp : lnk s' p = lnk s p)
    (lnkK : ∀ j g, Edge s' p j (.internal g) → lnk s' g = some (some p, j))
    (gone : ∀ g, .internal g ∈ Kc.map Child.arena → .internal g ∉ Mc.map Child.arena → lnk s' g = none)
    (hchs : ∀ y, y ≠ p → .internal y ∉ Kc.map Child.arena → chs s' y = chs s y)
    (hcat : Mc.flatMap (fun c => chsI s' c.arena) = Kc.flatMap (fun c => chsI s c.arena))
    (lnkG : ∀ g, .internal g ∈ Mc.map Child.arena → ∀ i y, Edge s' g i (.internal y) → lnk s' y = some (some g, i))
    (lparG : ∀ g, .internal g ∈ Mc.map Child.arena → ∀ i l, Edge s' g i (.leaf l) → lpar s' l = some g)
    (lnkO : ∀ y, .internal y ∉ kids s p → (∀ g, .internal g ∈ Kc.map Child.arena → .internal y ∉ kids s g) →
      lnk s' y = lnk s y)
    (lparO : ∀ l, (∀ g, .internal g ∈ Kc.map Child.arena → .leaf l ∉ kids s g) → lpar s' l = lpar s l) :
    Regroup s s' p := by
  have hin := kids_internal w hl
  have hkk : kids s p = L.map Child.arena ++ Kc.map Child.arena ++ R.map Child.arena := by
    rw [kids_chs, hk]; simp
  have hkk' : kids s' p = L.map Child.arena ++ Mc.map Child.arena ++ R.map Child.arena := by
    rw [kids_chs, hk']; simp
  have nd := w.kids_nodup p
  rw [hkk] at nd
  have hsub : ∀ a ∈ kids s' p, a ∈ kids s p := by
    intro a ha
    rw [hkk'] at ha
    rw [hkk]
    simp only [List.mem_append] at ha ⊢
    rcases ha with (ha | ha) | ha
    · exact Or.inl (Or.inl ha)
    · exact Or.inl (Or.inr (hM a ha))
    · exact Or.inr ha
  have hKp : ∀ g, .internal g ∈ Kc.map Child.arena → .internal g ∈ kids s p := by
    intro g hg; rw [hkk]; simp only [List.mem_append]; exact Or.inl (Or.inr hg)
  have hpK : Idx.internal p ∉ Kc.map Child.arena := by
    intro hm
    obtain ⟨i, hi⟩ := mem_kids.mp (hKp p hm)
    exact kid_ne_self w hi rfl
  -- a kid outside the block keeps its children
  have out : ∀ g, .internal g ∈ kids s' p → .internal g ∉ Kc.map Child.arena → chs s' g = chs s g := by
    intro g hg hgK
    apply hchs g _ hgK
    intro e
    subst e
    obtain ⟨i, hi⟩ := mem_kids.mp (hsub _ hg)
    exact kid_ne_self w hi rfl
  have disj : ∀ a, a ∈ L.map Child.arena ∨ a ∈ R.map Child.arena → a ∉ Kc.map Child.arena := by
    rw [List.nodup_append] at nd
    have n1 := List.nodup_append.mp nd.1
    intro a ha hK
    rcases ha with ha | ha
    · exact n1.2.2 a ha a hK rfl
    · exact nd.2.2 a (List.mem_append.mpr (Or.inr hK)) a ha rfl
  have memM : ∀ g, .internal g ∈ kids s' p → .internal g ∈ Kc.map Child.arena → .internal g ∈ Mc.map Child.arena := by
    intro g hg hK
    rw [hkk'] at hg
    simp only [List.mem_append] at hg
    rcases hg with (hg | hg) | hg
    · exact absurd hK (disj _ (Or.inl hg))
    · exact hg
    · exact absurd hK (disj _ (Or.inr hg))
  -- a grandchild belongs to one kid only
  have gpar : ∀ g g' a, a ∈ kids s g → a ∈ kids s g' → g = g' := by
    intro g g' a h1 h2
    obtain ⟨i, hi⟩ := mem_kids.mp h1
    obtain ⟨j, hj⟩ := mem_kids.mp h2
    exact (w.kid_inj hi hj).1
  have kidNotGrand : ∀ y g, .internal g ∈ kids s p → .internal y ∈ kids s g → .internal y ∉ kids s p := by
    intro y g hg hy hyp
    have := gpar p g _ hyp hy
    subst this
    obtain ⟨i, hi⟩ := mem_kids.mp hg
    exact kid_ne_self w hi rfl
  refine ⟨root, by omega, helm, ?_, lnkp, ?_, ?_, ?_, ?_, ?_, ?_, ?_, ?_⟩
  · -- liveness of leaves
    intro l
    rw [← elm_none, ← elm_none, helm]
  · intro i a he
    obtain ⟨g, rfl⟩ := hin a (hsub a (mem_kids.mpr ⟨i, he⟩))
    exact ⟨g, rfl, lnkK i g he, Or.inr (hsub _ (mem_kids.mpr ⟨i, he⟩))⟩
  · intro y h1 h2
    rw [hkk] at h1
    rw [hkk'] at h2
    simp only [List.mem_append, not_or] at h1 h2
    rcases h1 with (h1 | h1) | h1
    · exact absurd h1 h2.1.1
    · exact gone y h1 h2.1.2
    · exact absurd h1 h2.2
  · intro g i y hg he
    by_cases hK : .internal g ∈ Kc.map Child.arena
    · exact lnkG g (memM g hg hK) i y he
    · have hc := out g hg hK
      have he0 : Edge s g i (.internal y) := by rw [Edge, kids_chs, ← hc, ← kids_chs]; exact he
      have hyg : .internal y ∈ kids s g := mem_kids.mpr ⟨i, he0⟩
      rw [lnkO y (kidNotGrand y g (hsub _ hg) hyg)]
      · exact (w.kin he0).2
      · intro g' hg' hy
        have := gpar g g' _ hyg hy
        subst this
        exact hK hg'
  · intro g i l hg he
    by_cases hK : .internal g ∈ Kc.map Child.arena
    · exact lparG g (memM g hg hK) i l he
    · have hc := out g hg hK
      have he0 : Edge s g i (.leaf l) := by rw [Edge, kids_chs, ← hc, ← kids_chs]; exact he
      rw [lparO l]
      · exact (w.klf he0).2
      · intro g' hg' hy
        have := gpar g g' _ (mem_kids.mpr ⟨i, he0⟩) hy
        subst this
        exact hK hg'
  · intro y h1 h2 h3
    exact lnkO y h1 (fun g hg => h3 g (hKp g hg))
  · intro y h1 h2 h3
    exact hchs y h1 (fun hK => h2 (hKp y hK))
  · intro l hl
    exact lparO l (fun g hg => hl g (hKp g hg))
  · simp only [grand]
    rw [hk, hk', List.flatMap_append, List.flatMap_append, List.flatMap_append, List.flatMap_append, hcat]
    have key : ∀ (T : List (Child C)), (∀ c ∈ T, c.arena ∉ Kc.map Child.arena ∧ c.arena ∈ kids s p) →
        T.flatMap (fun c => chsI s' c.arena) = T.flatMap (fun c => chsI s c.arena) := by
      intro T hT
      apply flatMap_congr'
      intro c hc
      obtain ⟨h1, h2⟩ := hT c hc
      cases ha : c.arena with
      | leaf l => rfl
      | internal g =>
        rw [ha] at h1 h2
        simp only [chsI]
        apply hchs g _ h1
        intro e
        subst e
        obtain ⟨i, hi⟩ := mem_kids.mp h2
        exact kid_ne_self w hi rfl
    rw [key L, key R]
    · intro c hc
      have : c.arena ∈ R.map Child.arena := List.mem_map_of_mem hc
      exact ⟨disj _ (Or.inr this), by rw [hkk]; simp only [List.mem_append]; exact Or.inr this⟩
    · intro c hc
      have : c.arena ∈ L.map Child.arena := List.mem_map_of_mem hc
      exact ⟨disj _ (Or.inl this), by rw [hkk]; simp only [List.mem_append]; exact Or.inl (Or.inl this)⟩

/-- The last step of `handle_lack_single_layer`: the moved grandchildren are re-parented. -/
theorem pair_finish {s5 : Tree E C} (w : WF s lvl h) (hl : 2 ≤ lvl p) {a b : Nat} {L R Mc : List (Child C)}
    {ca cb : Child C} (hca : ca.arena = .internal a) (hcb : cb.arena = .internal b)
    (hk : chs s p = L ++ [ca, cb] ++ R) (hk' : chs s5 p = L ++ Mc ++ R)
    (hM : ∀ x ∈ Mc.map Child.arena, x = .internal a ∨ x = .internal b)
    (root : s5.root = s.root) (items : s5.inn.items.length = s.inn.items.length) (hlf : s5.lf = s.lf)
    (lnkp : lnk s5 p = lnk s p)
    (lnkK : ∀ j g, Edge s5 p j (.internal g) → lnk s5 g = some (some p, j))
    (gone : ∀ g, g = a ∨ g = b → .internal g ∉ Mc.map Child.arena → lnk s5 g = none)
    (hchs : ∀ y, y ≠ p → y ≠ a → y ≠ b → chs s5 y = chs s y)
    (hcat : Mc.flatMap (fun c => chsI s5 c.arena) = chs s a ++ chs s b)
    (lnkO : ∀ y, .internal y ∉ kids s p → lnk s5 y = lnk s y)
    {rp : List (Idx × Nat × Nat)}
    (R1 : ∀ g, .internal g ∈ Mc.map Child.arena → ∀ (j : Nat) (c : Child C), (chs s5 g)[j]? = some c →
      look rp c.arena = some (g, j) ∨ (look rp c.arena = none ∧ (chs s g)[j]? = some c))
    (R2 : ∀ e ∈ rp, e.1 ∈ kids s a ∨ e.1 ∈ kids s b) :
    ∃ s6, applyReparent s5 rp = .ok s6 ∧ Regroup s s6 p ∧ (∀ y, chs s6 y = chs s5 y) ∧
      (∀ y, lnk s6 y = none ↔ lnk s5 y = none) ∧ s6.rootCache = s5.rootCache ∧
      s6.lf.items.length = s.lf.items.length ∧ s6.inn.items.length = s.inn.items.length := by
  have hkk : kids s p = L.map Child.arena ++ [.internal a, .internal b] ++ R.map Child.arena := by
    rw [kids_chs, hk]; simp [hca, hcb]
  have hap : .internal a ∈ kids s p := by rw [hkk]; simp
  have hbp : .internal b ∈ kids s p := by rw [hkk]; simp
  have gpar : ∀ g g' x, x ∈ kids s g → x ∈ kids s g' → g = g' := by
    intro g g' a h1 h2
    obtain ⟨i, hi⟩ := mem_kids.mp h1
    obtain ⟨j, hj⟩ := mem_kids.mp h2
    exact (w.kid_inj hi hj).1
  have kidNotGrand : ∀ y g, .internal g ∈ kids s p → .internal y ∈ kids s g → .internal y ∉ kids s p := by
    intro y g hg hy hyp
    have := gpar p g _ hyp hy
    subst this
    obtain ⟨i, hi⟩ := mem_kids.mp hg
    exact kid_ne_self w hi rfl
  have lpar5 : ∀ l, lpar s5 l = lpar s l := fun l => by simp only [lpar, hlf]
  have elm5 : ∀ l, elm s5 l = elm s l := fun l => by simp only [elm, hlf]
  have lookNone : ∀ x, x ∉ kids s a → x ∉ kids s b → look rp x = none := by
    intro x h1 h2
    apply look_none
    intro e he hx
    rcases R2 e he with h | h
    · exact h1 (hx ▸ h)
    · exact h2 (hx ▸ h)
  obtain ⟨s6, e1, e2, e3, e4, e5, e6, e7, e8, e9⟩ := applyReparent_spec rp s5 (by
    intro e he
    have hm : e.1 ∈ kids s a ∨ e.1 ∈ kids s b := R2 e he
    have : ∃ g, .internal g ∈ kids s p ∧ e.1 ∈ kids s g := by
      rcases hm with h | h
      · exact ⟨a, hap, h⟩
      · exact ⟨b, hbp, h⟩
    obtain ⟨g, hg, hx⟩ := this
    obtain ⟨i, hi⟩ := mem_kids.mp hx
    cases hx1 : e.1 with
    | leaf l =>
      rw [hx1] at hi
      simp only [Live]
      rw [lpar5, (w.klf hi).2]; simp
    | internal y =>
      rw [hx1] at hi
      simp only [Live]
      rw [lnkO y (kidNotGrand y g hg (mem_kids.mpr ⟨i, hi⟩)), (w.kin hi).2]; simp)
  have kids6 : ∀ y, kids s6 y = kids s5 y := by intro y; rw [kids_chs, kids_chs, e7]
  have npa : p ≠ a := by
    obtain ⟨i, hi⟩ := mem_kids.mp hap
    exact Ne.symm (kid_ne_self w hi)
  have npb : p ≠ b := by
    obtain ⟨i, hi⟩ := mem_kids.mp hbp
    exact Ne.symm (kid_ne_self w hi)
  have lookKid : ∀ g, .internal g ∈ kids s p → look rp (.internal g) = none := by
    intro g hg
    apply lookNone
    · intro hm; exact kidNotGrand g a hap hm hg
    · intro hm; exact kidNotGrand g b hbp hm hg
  have hMK : ∀ g, .internal g ∈ Mc.map Child.arena → g = a ∨ g = b := by
    intro g hg
    rcases hM _ hg with h | h
    · cases h; exact Or.inl rfl
    · cases h; exact Or.inr rfl
  -- children of the surviving nodes come from `a` and `b`
  have hlive : ∀ y, lnk s6 y = none ↔ lnk s5 y = none := by
    intro y
    rw [e6]
    cases hlk : look rp (.internal y) with
    | none => simp
    | some v =>
      simp only [orLnk_some]
      have : ∃ g, .internal g ∈ kids s p ∧ .internal y ∈ kids s g := by
        apply Classical.byContradiction
        intro hn
        have := lookNone (.internal y) (fun h => hn ⟨a, hap, h⟩) (fun h => hn ⟨b, hbp, h⟩)
        rw [hlk] at this
        cases this
      obtain ⟨g, hg, hy⟩ := this
      obtain ⟨i, hi⟩ := mem_kids.mp hy
      rw [lnkO y (kidNotGrand y g hg hy), (w.kin hi).2]
      simp
  refine ⟨s6, e1, ?_, e7, hlive, e3, by rw [e5, hlf], by rw [e4, items]⟩
  refine regroup_block w hl (Kc := [ca, cb]) (Mc := Mc) hk (by rw [e7]; exact hk') ?_ (by rw [e2, root]) (by rw [e4, items])
    (fun l => by rw [e9, elm5]) ?_ ?_ ?_ ?_ ?_ ?_ ?_ ?_ ?_
  · intro x hx
    rcases hM x hx with h | h
    · simp [hca, h]
    · simp [hcb, h]
  · rw [e6, lookNone, orLnk_none, lnkp]
    · intro hm
      obtain ⟨i, hi⟩ := mem_kids.mp hap
      obtain ⟨j, hj⟩ := mem_kids.mp hm
      have h1 := (w.kin hi).1
      have h2 := (w.kin hj).1
      omega
    · intro hm
      obtain ⟨i, hi⟩ := mem_kids.mp hbp
      obtain ⟨j, hj⟩ := mem_kids.mp hm
      have h1 := (w.kin hi).1
      have h2 := (w.kin hj).1
      omega
  · intro j g he
    rw [Edge, kids6] at he
    have hgp : .internal g ∈ kids s p := by
      have hm : .internal g ∈ kids s5 p := mem_kids.mpr ⟨j, he⟩
      rw [kids_chs, hk', List.map_append, List.map_append] at hm
      rw [hkk]
      simp only [List.mem_append] at hm ⊢
      rcases hm with (h | h) | h
      · exact Or.inl (Or.inl h)
      · rcases hM _ h with h | h
        · cases h; exact Or.inl (Or.inr (by simp))
        · cases h; exact Or.inl (Or.inr (by simp))
      · exact Or.inr h
    rw [e6, lookKid g hgp, orLnk_none]
    exact lnkK j g he
  · intro g hg hng
    rw [hlive]
    apply gone g _ hng
    simp only [List.map_cons, hca, hcb, List.map_nil, List.mem_cons, Idx.internal.injEq, List.not_mem_nil, or_false] at hg
    exact hg
  · intro y h1 h2
    simp only [List.map_cons, hca, hcb, List.map_nil, List.mem_cons, Idx.internal.injEq, List.not_mem_nil, or_false, not_or] at h2
    rw [e7, hchs y h1 h2.1 h2.2]
  · have h1 : Mc.flatMap (fun c => chsI s6 c.arena) = Mc.flatMap (fun c => chsI s5 c.arena) := by
      apply flatMap_congr'
      intro c _
      cases c.arena with
      | leaf l => rfl
      | internal y => exact e7 y
    rw [h1, hcat]
    simp [hca, hcb, chsI]
  · intro g hg i y he
    rw [Edge, kids6] at he
    obtain ⟨c, hc, hcy⟩ := edge_chs.mp (show Edge s5 g i (.internal y) from he)
    rw [e6]
    rcases R1 g hg i c hc with h1 | ⟨h1, h2⟩
    · rw [hcy] at h1
      rw [h1, orLnk_some]
    · rw [hcy] at h1
      rw [h1, orLnk_none]
      have he0 : Edge s g i (.internal y) := edge_chs.mpr ⟨c, h2, hcy⟩
      have hgp : .internal g ∈ kids s p := by
        rcases hMK g hg with rfl | rfl
        · exact hap
        · exact hbp
      rw [lnkO y (kidNotGrand y g hgp (mem_kids.mpr ⟨i, he0⟩))]
      exact (w.kin he0).2
  · intro g hg i y he
    rw [Edge, kids6] at he
    obtain ⟨c, hc, hcy⟩ := edge_chs.mp (show Edge s5 g i (.leaf y) from he)
    rw [e8]
    rcases R1 g hg i c hc with h1 | ⟨h1, h2⟩
    · rw [hcy] at h1
      rw [h1, orPar_some]
    · rw [hcy] at h1
      rw [h1, orPar_none, lpar5]
      have he0 : Edge s g i (.leaf y) := edge_chs.mpr ⟨c, h2, hcy⟩
      exact (w.klf he0).2
  · intro y h1 h2
    rw [e6, lookNone, orLnk_none, lnkO y h1]
    · exact h2 a (by simp [hca])
    · exact h2 b (by simp [hcb])
  · intro l h2
    rw [e8, lookNone, orPar_none, lpar5]
    · exact h2 a (by simp [hca])
    · exact h2 b (by simp [hcb])

end
end GB

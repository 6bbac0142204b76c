import Verif.Proof.Pair

/-!
# `handle_lack_single_layer` at a node that is not the root
-/

namespace GB
variable {E C D : Type}
open Tree

section
variable {s : Tree E C} {lvl : Nat → Nat} {h p : Nat}

theorem WF.congr_lvl (w : WF s lvl h) {lvl' : Nat → Nat} (hl : ∀ y, lnk s y ≠ none → lvl' y = lvl y) : WF s lvl' h := by
  have hroot : lnk s s.root ≠ none := by obtain ⟨i, hi⟩ := w.root'; rw [hi]; simp
  refine ⟨w.root, ?_, w.h_pos, w.h_le, ?_, ?_, w.uniq, ?_, w.par_in, w.par_lf⟩
  · rw [hl _ hroot, w.root_lvl]
  · intro p i y he
    have h1 := w.kid_in p i y he
    have hy : lnk s y ≠ none := by rw [(w.kin he).2]; simp
    rw [hl p (edge_live he), hl y hy]
    exact h1
  · intro p i l he
    rw [hl p (edge_live he)]
    exact w.kid_lf p i l he
  · intro p N hN
    rw [hl p (lnk_isSome.mpr ⟨N, hN⟩)]
    exact w.lvl_pos p N hN

theorem Good.congr_lvl {B : Trait E C D} {A : Law B} (g : Good A s lvl h) {lvl' : Nat → Nat}
    (hl : ∀ y, lnk s y ≠ none → lvl' y = lvl y) : Good A s lvl' h :=
  ⟨g.wf.congr_lvl hl, g.cinv, g.cok, g.rok, g.okE⟩

theorem GoodX.congr_lvl {B : Trait E C D} {A : Law B} {X : Idx → Prop} {Q : Prop} (g : GoodX A s lvl h X Q)
    {lvl' : Nat → Nat} (hl : ∀ y, lnk s y ≠ none → lvl' y = lvl y) : GoodX A s lvl' h X Q :=
  ⟨g.wf.congr_lvl hl, g.cinv, g.cok, g.rok, g.okE⟩

theorem eraseIdx_drop {α : Type} (l : List α) (i : Nat) : (l.eraseIdx i).drop i = l.drop (i + 1) := by
  rw [List.eraseIdx_eq_take_drop_succ, List.drop_append]
  by_cases hi : i ≤ l.length
  · simp [List.length_take, Nat.min_eq_left hi]
  · have h1 : l.drop (i + 1) = [] := List.drop_eq_nil_of_le (by omega)
    rw [h1]
    simp

/-- A child is taken out of a node with internal children: the slots behind it are renumbered. -/
theorem del_slot (w : WF s lvl h) {d x : Nat} (he : Edge s p d (.internal x)) {t : Tree E C}
    (hlnk : ∀ y, lnk t y = lnk s y) (hk : kids t p = (kids s p).eraseIdx d) :
    ∃ t', updSlotsFrom (freeIn t x) p d = .ok t' ∧ SameData (freeIn t x) t' ∧ t'.lf = t.lf ∧
      (∀ j g, Edge t' p j (.internal g) → lnk t' g = some (some p, j)) ∧
      (∀ y, .internal y ∉ kids s p → lnk t' y = lnk s y) ∧ lnk t' x = none ∧
      (∀ y, y ≠ x → (lnk t' y ≠ none ↔ lnk s y ≠ none)) := by
  have hxp : x ≠ p := kid_ne_self w he
  have hpl : lnk s p ≠ none := edge_live he
  have hlp := (w.kin he).1
  have hx1 : 1 ≤ lvl x := (w.lvl_pos' (by rw [(w.kin he).2]; simp)).1
  have nd := w.kids_nodup p
  have hdl : d < (kids s p).length := (List.getElem?_eq_some_iff.mp he).1
  have kf : kids (freeIn t x) p = (kids s p).eraseIdx d := by
    rw [kids_chs, chs_free, if_neg (Ne.symm hxp), ← kids_chs, hk]
  have lf : ∀ y, lnk (freeIn t x) y = if y = x then none else lnk s y := by
    intro y; rw [lnk_free, hlnk]
  have hnx : Idx.internal x ∉ (kids s p).eraseIdx d := by
    intro hm
    obtain ⟨j, hj⟩ := List.mem_iff_getElem?.mp hm
    rw [List.getElem?_eraseIdx] at hj
    split at hj
    · have := (w.kid_inj he (show Edge s p j _ from hj)).2; omega
    · have := (w.kid_inj he (show Edge s p (j + 1) _ from hj)).2; omega
  obtain ⟨t', h1, h2, h3, h4, h5⟩ := updSlotsFrom_in (s := freeIn t x) (p := p) (index := d)
    (by rw [lf, if_neg (Ne.symm hxp)]; exact hpl)
    (by
      intro a ha
      rw [kf] at ha
      have ha' := List.mem_of_mem_eraseIdx ha
      obtain ⟨y, rfl⟩ := kids_internal w (by omega) a ha'
      refine ⟨y, rfl, ?_⟩
      rw [lf, if_neg (by rintro rfl; exact hnx ha)]
      exact kids_live_in w ha')
    (by rw [kf]; exact nd.sublist (List.eraseIdx_sublist _ _))
  have kt' : kids t' p = (kids s p).eraseIdx d := by rw [kids_chs, h2.chs, ← kids_chs, kf]
  rw [kf, eraseIdx_drop] at h4
  have hO : ∀ y, .internal y ∉ kids s p → lnk t' y = lnk s y := by
    intro y hy
    rw [h4 y (fun hm => hy (List.mem_of_mem_drop hm)), lf, if_neg]
    rintro rfl
    exact hy (mem_kids.mpr ⟨d, he⟩)
  have hx' : lnk t' x = none := by
    rw [h4, lf, if_pos rfl]
    intro hm
    obtain ⟨j, hj⟩ := List.mem_iff_getElem?.mp hm
    rw [List.getElem?_drop] at hj
    have := (w.kid_inj he (show Edge s p (d + 1 + j) _ from hj)).2
    omega
  have hK : ∀ j g, Edge t' p j (.internal g) → lnk t' g = some (some p, j) := by
    intro j g hj
    rw [Edge, kt'] at hj
    have hgx : g ≠ x := by rintro rfl; exact hnx (List.mem_of_getElem? hj)
    have hj0 := hj
    rw [List.getElem?_eraseIdx] at hj
    split at hj
    · next hlt =>
      rw [h4, lf, if_neg hgx]
      · exact (w.kin (show Edge s p j (.internal g) from hj)).2
      · intro hm
        obtain ⟨k, hk⟩ := List.mem_iff_getElem?.mp hm
        rw [List.getElem?_drop] at hk
        have := (w.kid_inj (show Edge s p j (.internal g) from hj) (show Edge s p (d + 1 + k) _ from hk)).2
        omega
    · next hlt =>
      have hl := (w.kin (show Edge s p (j + 1) (.internal g) from hj)).2
      exact h5 j g (some p) (j + 1) (by omega) (by rw [Edge, kf]; exact hj0) (by rw [lf, if_neg hgx, hl])
  refine ⟨t', h1, h2, h3, hK, hO, hx', ?_⟩
  intro y hy
  by_cases hyk : .internal y ∈ kids s p
  · have : .internal y ∈ kids t' p := by
      rw [kt', List.mem_eraseIdx_iff_getElem?]
      obtain ⟨j, hj⟩ := mem_kids.mp hyk
      refine ⟨j, ?_, hj⟩
      rintro rfl
      rw [Edge, he] at hj
      cases hj
      exact hy rfl
    obtain ⟨j, hj⟩ := mem_kids.mp this
    rw [hK j y hj]
    have := kids_live_in w hyk
    simp [this]
  · rw [hO y hyk]

theorem purge_empty {t : Tree E C} {x : Nat} (hx : lnk t x ≠ none) (hc : chs t x = []) :
    purge t (.internal x) = .ok (freeIn t x) := by
  obtain ⟨N, hN⟩ := lnk_isSome.mp hx
  have hch : N.children = [] := by rw [← chs_of hN, hc]
  unfold purge
  rw [show (t.inn.items.length + 1) * (MAXC + 1) + 1 = (t.inn.items.length * (MAXC + 1) + MAXC) + 1 + 1 by
    simp only [MAXC]; omega]
  simp only [purgeF, hN, hch, List.map_nil, List.reverse_nil, List.append_nil]
  rfl

/-- result of rebalancing two neighbours below `p` -/
structure PairPost {B : Trait E C D} (A : Law B) (s s' : Tree E C) (lvl : Nat → Nat) (h p a b : Nat)
    (X : Idx → Prop) (Q : Prop) : Prop where
  good : GoodX A s' lvl h X Q
  ptot : A.total (cch s' p) = A.total (cch s p)
  rc : s'.rootCache = s.rootCache
  same : Same s s'
  live : ∀ y, lnk s' y ≠ none → lnk s y ≠ none
  keep : ∀ y, lnk s y ≠ none → y ≠ a → y ≠ b → lnk s' y ≠ none
  frame : ∀ y, y ≠ p → y ≠ a → y ≠ b → chs s' y = chs s y
  pair : ∀ y, lnk s' y ≠ none → y = a ∨ y = b → (chs s' y).length ≤ 11 ∧
    (6 ≤ (chs s' y).length ∨ (chs s' y).length = (chs s a).length + (chs s b).length)
  plen : (chs s' p).length ≤ (chs s p).length ∧ (chs s p).length ≤ (chs s' p).length + 1
  items : s'.inn.items.length = s.inn.items.length
  kind : (lnk s' a ≠ none ∧ lnk s' b ≠ none ∧ 6 ≤ (chs s' a).length ∧ 6 ≤ (chs s' b).length ∧
    (chs s' p).length = (chs s p).length) ∨ lnk s' a = none ∨ lnk s' b = none
  rg : Regroup s s' p
  shape : ∃ L R M, kids s p = L ++ [.internal a, .internal b] ++ R ∧ kids s' p = L ++ M ++ R ∧
    (M = [.internal a, .internal b] ∨ (M = [.internal a] ∧ lnk s' b = none) ∨ (M = [.internal b] ∧ lnk s' a = none)) ∧
    ∀ x, .internal x ∈ M → chs s' x ≠ []

/-- The caches after the exchange. -/
theorem pair_good {B : Trait E C D} {A : Law B} {s6 : Tree E C} {X : Idx → Prop} {Q : Prop} (g : GoodX A s lvl h X Q)
    (hX : ∀ a ∈ kids s p, ¬ X a) (hl : 2 ≤ lvl p) {a b : Nat}
    {L R Mc : List (Child C)} {ca cb : Child C} (hca : ca.arena = .internal a) (hcb : cb.arena = .internal b)
    (hk : chs s p = L ++ [ca, cb] ++ R) (hk' : chs s6 p = L ++ Mc ++ R) (hMc : Mc ≠ [])
    (hM : ∀ c ∈ Mc, ∃ x, c.arena = .internal x ∧ (x = a ∨ x = b) ∧ chs s6 x ≠ [] ∧ c.cache = A.total (cch s6 x))
    (r : Regroup s s6 p) (hrc : s6.rootCache = s.rootCache)
    (hne : ∀ x, .internal x ∈ kids s p → chs s x ≠ [] ∨ LawE A)
    (hchs : ∀ y, y ≠ p → y ≠ a → y ≠ b → chs s6 y = chs s y) 
    (hsub : ∀ x, (x = a ∨ x = b) → ∀ c ∈ chs s6 x, c ∈ chs s a ∨ c ∈ chs s b)
    (hlive : ∀ y, lnk s6 y ≠ none → lnk s y ≠ none) :
    GoodX A s6 lvl h X Q ∧ A.total (cch s6 p) = A.total (cch s p) ∧ s6.rootCache = s.rootCache := by
  have hkk : kids s p = L.map Child.arena ++ [.internal a, .internal b] ++ R.map Child.arena := by
    rw [kids_chs, hk]; simp [hca, hcb]
  have nd := g.wf.kids_nodup p
  rw [hkk] at nd
  have hplive : lnk s p ≠ none := by
    intro hn
    have := chs_none hn
    rw [hk] at this
    simp at this
  have hLR : ∀ c, c ∈ L ∨ c ∈ R → ∃ x, c.arena = .internal x ∧ .internal x ∈ kids s p ∧ chs s6 x = chs s x ∧ c ∈ chs s p := by
    intro c hc
    have hcp : c ∈ chs s p := by rw [hk]; simp only [List.mem_append]; rcases hc with h | h <;> simp [h]
    have hm : c.arena ∈ kids s p := by rw [kids_chs]; exact List.mem_map_of_mem hcp
    obtain ⟨x, hx⟩ := kids_internal g.wf hl _ hm
    rw [hx] at hm
    refine ⟨x, hx, hm, ?_, hcp⟩
    have hxp : x ≠ p := by obtain ⟨i, hi⟩ := mem_kids.mp hm; exact kid_ne_self g.wf hi
    have hxn : x ≠ a ∧ x ≠ b := by
      rw [List.nodup_append] at nd
      have n1 := List.nodup_append.mp nd.1
      rcases hc with h | h
      · have h1 : c.arena ∈ L.map Child.arena := List.mem_map_of_mem h
        rw [hx] at h1
        constructor
        · rintro rfl; exact n1.2.2 _ h1 _ (by simp) rfl
        · rintro rfl; exact n1.2.2 _ h1 _ (by simp) rfl
      · have h1 : c.arena ∈ R.map Child.arena := List.mem_map_of_mem h
        rw [hx] at h1
        constructor
        · rintro rfl; exact nd.2.2 (.internal x) (by simp) _ h1 rfl
        · rintro rfl; exact nd.2.2 (.internal x) (by simp) _ h1 rfl
    exact hchs x hxp hxn.1 hxn.2
  have hmem : ∀ c ∈ chs s6 p, c ∈ Mc ∨ (c ∈ L ∨ c ∈ R) := by
    intro c hc
    rw [hk'] at hc
    simp only [List.mem_append] at hc
    rcases hc with (h | h) | h
    · exact Or.inr (Or.inl h)
    · exact Or.inl h
    · exact Or.inr (Or.inr h)
  have hcok : ∀ x, (x = a ∨ x = b) → ∀ c ∈ chs s6 x, A.okC c.cache := by
    intro x hx c hc
    rcases hsub x hx c hc with h | h
    · exact g.cok _ c h
    · exact g.cok _ c h
  have := r.goodX (A := A) g hX hplive hl hrc hne
    (by
      intro x hx
      obtain ⟨c, hc, hcx⟩ := mem_kids_chs.mp hx
      rcases hmem c hc with h | h
      · obtain ⟨y, h1, h2, h3, h4⟩ := hM c h
        rw [h1] at hcx; cases hcx
        exact Or.inl h3
      · obtain ⟨y, h1, h2, h3, h4⟩ := hLR c h
        rw [h1] at hcx; cases hcx
        rw [h3]; exact hne x h2)
    (by rw [hk]; simp)
    (Or.inl (by rw [hk']; simp [hMc]))
    (by
      intro c hc
      rcases hmem c hc with h | h
      · obtain ⟨y, h1, h2, h3, h4⟩ := hM c h
        rw [h4]
        apply A.total_ok
        · simpa [cch] using h3
        · intro c' hc'
          obtain ⟨c2, h5, rfl⟩ := List.mem_map.mp hc'
          exact hcok y h2 c2 h5
      · obtain ⟨y, h1, h2, h3, h4⟩ := hLR c h
        exact g.cok p c h4)
    (by
      intro c hc
      rcases hmem c hc with h | h
      · obtain ⟨y, h1, h2, h3, h4⟩ := hM c h
        simp only [EntryOK, h1, h4]
      · obtain ⟨y, h1, h2, h3, h4⟩ := hLR c h
        have := g.cinv p c h4 (hX _ (by rw [h1]; exact h2))
        simp only [EntryOK, h1] at this ⊢
        rw [this, cch, cch, h3])
  refine ⟨this.1.congr_lvl ?_, this.2, hrc⟩
  intro y hy
  exact (relvl_live (hlive y hy)).symm

end
end GB

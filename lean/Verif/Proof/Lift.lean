import Verif.Proof.LeafEdit

/-!
# Adding and removing a level at the root
-/

namespace GB
variable {E C D : Type}
open Tree

/-- In `s'` the root has the single child `l`, which has the children the root has in `s`. -/
structure Lift (s s' : Tree E C) (l : Nat) : Prop where
  root : s'.root = s.root
  l_fresh : lnk s l = none
  c_root : kids s' s.root = [.internal l]
  c_l : chs s' l = chs s s.root
  chs : ∀ y, y ≠ s.root → y ≠ l → chs s' y = chs s y
  lnk_l : lnk s' l = some (some s.root, 0)
  lnk_root : ∃ i, lnk s' s.root = some (none, i)
  lnk_root0 : ∃ i, lnk s s.root = some (none, i)
  lnk_in : ∀ y, y ≠ s.root → y ≠ l → .internal y ∉ kids s s.root → lnk s' y = lnk s y
  lnk_kid : ∀ y i, y ≠ s.root → y ≠ l → .internal y ∈ kids s s.root →
    (lnk s' y = some (some l, i) ↔ lnk s y = some (some s.root, i))
  live_kid : ∀ y, y ≠ s.root → y ≠ l → (lnk s' y = none ↔ lnk s y = none)
  lpar_out : ∀ x, .leaf x ∉ kids s s.root → lpar s' x = lpar s x
  lpar_kid : ∀ x, .leaf x ∈ kids s s.root → (lpar s' x = some l ↔ lpar s x = some s.root)
  lpar_live : ∀ x, lpar s' x = none ↔ lpar s x = none
  elm : ∀ x, elm s' x = elm s x

namespace Lift
variable {s s' : Tree E C} {lvl : Nat → Nat} {h l : Nat}

theorem l_ne (r : Lift s s' l) : l ≠ s.root := by
  intro e
  obtain ⟨i, hi⟩ := r.lnk_root0
  rw [← e, r.l_fresh] at hi
  cases hi

theorem kids_l (r : Lift s s' l) : kids s' l = kids s s.root := by rw [kids_chs, kids_chs, r.c_l]

theorem kids_ne (r : Lift s s' l) {y : Nat} (h1 : y ≠ s.root) (h2 : y ≠ l) : kids s' y = kids s y := by
  rw [kids_chs, kids_chs, r.chs y h1 h2]

theorem kids_fresh (r : Lift s s' l) : kids s l = [] := by
  rw [kids_chs, chs_none r.l_fresh]; rfl

/-- levels of the taller tree -/
def up (s : Tree E C) (l : Nat) (lvl : Nat → Nat) (h : Nat) (y : Nat) : Nat :=
  if y = s.root then h + 1 else if y = l then h else lvl y

/-- levels of the lower tree -/
def down (s : Tree E C) (lvl : Nat → Nat) (h : Nat) (y : Nat) : Nat :=
  if y = s.root then h - 1 else lvl y

theorem wf_up (r : Lift s s' l) (w : WF s lvl h) (hi : h + 1 ≤ s'.inn.items.length) :
    WF s' (up s l lvl h) (h + 1) := by
  have hlr := r.l_ne
  have hupr : up s l lvl h s.root = h + 1 := by simp [up]
  have hupl : up s l lvl h l = h := by simp [up, hlr]
  have hupo : ∀ y, y ≠ s.root → y ≠ l → up s l lvl h y = lvl y := by
    intro y h1 h2; simp [up, h1, h2]
  have hne : ∀ q i y, Edge s q i (.internal y) → y ≠ s.root ∧ y ≠ l := by
    intro q i y he
    refine ⟨fun e => w.root_not_kid (e ▸ he), fun e => ?_⟩
    have := (w.kin he).2
    rw [e, r.l_fresh] at this
    cases this
  refine WF.of_views ?_ ?_ (by omega) hi ?_ ?_ ?_ ?_ ?_ ?_
  · rw [r.root]; exact r.lnk_root
  · rw [r.root, hupr]
  · intro q i y he
    by_cases h1 : q = s.root
    · subst h1
      rw [Edge, r.c_root] at he
      have : i = 0 ∧ y = l := by
        cases i with
        | zero => simpa [eq_comm] using he
        | succ i => simp at he
      obtain ⟨rfl, rfl⟩ := this
      exact ⟨by rw [hupr, hupl], r.lnk_l⟩
    · by_cases h2 : q = l
      · subst h2
        rw [Edge, r.kids_l] at he
        obtain ⟨h3, h4⟩ := hne _ _ _ he
        have e1 := w.kin he
        have hw := w.root_lvl
        refine ⟨by rw [hupl, hupo y h3 h4]; omega, ?_⟩
        exact (r.lnk_kid y i h3 h4 (mem_kids.mpr ⟨i, he⟩)).mpr e1.2
      · rw [Edge, r.kids_ne h1 h2] at he
        obtain ⟨h3, h4⟩ := hne _ _ _ he
        have e1 := w.kin he
        refine ⟨by rw [hupo q h1 h2, hupo y h3 h4]; exact e1.1, ?_⟩
        rw [r.lnk_in y h3 h4, e1.2]
        intro hm
        obtain ⟨j, hj⟩ := mem_kids.mp hm
        exact h1 (w.kid_in_inj he hj).1
  · intro q i x he
    by_cases h1 : q = s.root
    · subst h1
      rw [Edge, r.c_root] at he
      cases i with
      | zero => simp at he
      | succ i => simp at he
    · by_cases h2 : q = l
      · subst h2
        rw [Edge, r.kids_l] at he
        have e1 := w.klf he
        have hw := w.root_lvl
        refine ⟨by rw [hupl]; omega, ?_⟩
        exact (r.lpar_kid x (mem_kids.mpr ⟨i, he⟩)).mpr e1.2
      · rw [Edge, r.kids_ne h1 h2] at he
        have e1 := w.klf he
        refine ⟨by rw [hupo q h1 h2]; exact e1.1, ?_⟩
        rw [r.lpar_out x, e1.2]
        intro hm
        obtain ⟨j, hj⟩ := mem_kids.mp hm
        exact h1 (w.kid_lf_inj he hj).1
  · intro q i j x he he2
    by_cases h1 : q = s.root
    · subst h1
      rw [Edge, r.c_root] at he
      cases i with
      | zero => simp at he
      | succ i => simp at he
    · by_cases h2 : q = l
      · subst h2
        rw [Edge, r.kids_l] at he he2
        exact w.uniq _ i j x he he2
      · rw [Edge, r.kids_ne h1 h2] at he he2
        exact w.uniq _ i j x he he2
  · intro q hq
    have := w.h_pos
    by_cases h1 : q = s.root
    · subst h1; rw [hupr]; omega
    · by_cases h2 : q = l
      · subst h2; rw [hupl]; omega
      · rw [hupo q h1 h2]
        have := w.lvl_pos' (p := q) (fun e => hq ((r.live_kid q h1 h2).mpr e))
        omega
  · intro y hy hr
    rw [r.root] at hr
    by_cases h2 : y = l
    · subst h2
      exact ⟨s.root, 0, by rw [Edge, r.c_root]; rfl⟩
    · obtain ⟨q, i, he⟩ := w.par_in' (y := y) (fun e => hy ((r.live_kid y hr h2).mpr e)) hr
      by_cases h3 : q = s.root
      · subst h3
        exact ⟨l, i, by rw [Edge, r.kids_l]; exact he⟩
      · refine ⟨q, i, ?_⟩
        rw [Edge, r.kids_ne h3]
        · exact he
        · intro e
          subst e
          rw [Edge, r.kids_fresh] at he
          simp at he
  · intro x hx
    obtain ⟨q, i, he⟩ := w.par_lf' (l := x) (fun e => hx ((r.lpar_live x).mpr e))
    by_cases h3 : q = s.root
    · subst h3
      exact ⟨l, i, by rw [Edge, r.kids_l]; exact he⟩
    · refine ⟨q, i, ?_⟩
      rw [Edge, r.kids_ne h3]
      · exact he
      · intro e
        subst e
        rw [Edge, r.kids_fresh] at he
        simp at he

theorem wf_down (r : Lift s s' l) (w : WF s' lvl h) (hi : h - 1 ≤ s.inn.items.length) :
    WF s (down s lvl h) (h - 1) ∧ 2 ≤ h := by
  have hlr := r.l_ne
  have hdr : down s lvl h s.root = h - 1 := by simp [down]
  have hdo : ∀ y, y ≠ s.root → down s lvl h y = lvl y := by
    intro y h1; simp [down, h1]
  have hel : Edge s' s.root 0 (.internal l) := by rw [Edge, r.c_root]; rfl
  have hll := (w.kin hel).1
  have hrl := w.root_lvl
  rw [r.root] at hrl
  have hlpos := (w.lvl_pos' (p := l) (by rw [r.lnk_l]; simp)).1
  -- child lists of nodes of `s`
  have cases_s : ∀ q, q ≠ s.root → kids s q ≠ [] → q ≠ l := by
    intro q _ hq e
    subst e
    exact hq r.kids_fresh
  have hne : ∀ q i y, Edge s' q i (.internal y) → q ≠ s.root → y ≠ s.root ∧ y ≠ l := by
    intro q i y he hq
    refine ⟨fun e => ?_, fun e => ?_⟩
    · rw [e, ← r.root] at he; exact w.root_not_kid he
    · subst e; exact hq (w.kid_in_inj he hel).1
  refine ⟨?_, by omega⟩
  refine WF.of_views r.lnk_root0 hdr (by omega) hi ?_ ?_ ?_ ?_ ?_ ?_
  · intro q i y he
    by_cases h1 : q = s.root
    · subst h1
      have he' : Edge s' l i (.internal y) := by rw [Edge, r.kids_l]; exact he
      obtain ⟨h3, h4⟩ := hne _ _ _ he' hlr
      have e1 := w.kin he'
      refine ⟨by rw [hdr, hdo y h3]; omega, ?_⟩
      exact (r.lnk_kid y i h3 h4 (mem_kids.mpr ⟨i, he⟩)).mp e1.2
    · have h2 : q ≠ l := cases_s q h1 (by intro e; rw [Edge, e] at he; simp at he)
      have he' : Edge s' q i (.internal y) := by rw [Edge, r.kids_ne h1 h2]; exact he
      obtain ⟨h3, h4⟩ := hne _ _ _ he' h1
      have e1 := w.kin he'
      refine ⟨by rw [hdo q h1, hdo y h3]; exact e1.1, ?_⟩
      rw [← r.lnk_in y h3 h4, e1.2]
      intro hm
      rw [← r.kids_l] at hm
      obtain ⟨j, hj⟩ := mem_kids.mp hm
      exact h2 (w.kid_in_inj he' hj).1
  · intro q i x he
    by_cases h1 : q = s.root
    · subst h1
      have he' : Edge s' l i (.leaf x) := by rw [Edge, r.kids_l]; exact he
      have e1 := w.klf he'
      refine ⟨by rw [hdr]; omega, ?_⟩
      exact (r.lpar_kid x (mem_kids.mpr ⟨i, he⟩)).mp e1.2
    · have h2 : q ≠ l := cases_s q h1 (by intro e; rw [Edge, e] at he; simp at he)
      have he' : Edge s' q i (.leaf x) := by rw [Edge, r.kids_ne h1 h2]; exact he
      have e1 := w.klf he'
      refine ⟨by rw [hdo q h1]; exact e1.1, ?_⟩
      rw [← r.lpar_out x, e1.2]
      intro hm
      rw [← r.kids_l] at hm
      obtain ⟨j, hj⟩ := mem_kids.mp hm
      exact h2 (w.kid_lf_inj he' hj).1
  · intro q i j x he he2
    by_cases h1 : q = s.root
    · subst h1
      rw [Edge, ← r.kids_l] at he he2
      exact w.uniq _ i j x he he2
    · have h2 : q ≠ l := cases_s q h1 (by intro e; rw [Edge, e] at he; simp at he)
      rw [Edge, ← r.kids_ne h1 h2] at he he2
      exact w.uniq _ i j x he he2
  · intro q hq
    by_cases h1 : q = s.root
    · subst h1; rw [hdr]; omega
    · have h2 : q ≠ l := by intro e; subst e; exact hq r.l_fresh
      rw [hdo q h1]
      have hq' : lnk s' q ≠ none := fun e => hq ((r.live_kid q h1 h2).mp e)
      obtain ⟨N, hN⟩ := lnk_isSome.mp hq'
      have := w.live_lt hN (by rw [r.root]; exact h1)
      have := (w.lvl_pos' hq').1
      omega
  · intro y hy hr
    have h2 : y ≠ l := by intro e; subst e; exact hy r.l_fresh
    obtain ⟨q, i, he⟩ := w.par_in' (y := y) (fun e => hy ((r.live_kid y hr h2).mp e)) (by rw [r.root]; exact hr)
    by_cases h3 : q = l
    · subst h3
      exact ⟨s.root, i, by rw [Edge, ← r.kids_l]; exact he⟩
    · refine ⟨q, i, ?_⟩
      have h4 : q ≠ s.root := by
        intro e
        subst e
        rw [Edge, r.c_root] at he
        cases i with
        | zero => simp at he; exact h2 he.symm
        | succ i => simp at he
      rw [Edge, ← r.kids_ne h4 h3]
      exact he
  · intro x hx
    obtain ⟨q, i, he⟩ := w.par_lf' (l := x) (fun e => hx ((r.lpar_live x).mp e))
    by_cases h3 : q = l
    · subst h3
      exact ⟨s.root, i, by rw [Edge, ← r.kids_l]; exact he⟩
    · refine ⟨q, i, ?_⟩
      have h4 : q ≠ s.root := by
        intro e
        subst e
        rw [Edge, r.c_root] at he
        cases i with
        | zero => simp at he
        | succ i => simp at he
      rw [Edge, ← r.kids_ne h4 h3]
      exact he

/-- The leaf sequence is the same (stated from the lower tree). -/
theorem order (r : Lift s s' l) (w : WF s lvl h) {lvl' : Nat → Nat} (w' : WF s' lvl' (h + 1)) :
    order s' = order s := by
  have hlr := r.l_ne
  rw [order_eq w, order_eq w', r.root, leavesAt_succ, r.c_root]
  simp only [List.flatMap_cons, List.flatMap_nil, List.append_nil, sub]
  obtain ⟨k, hk⟩ : ∃ k, h = k + 1 := ⟨h - 1, by have := w.h_pos; omega⟩
  subst hk
  rw [leavesAt_succ, leavesAt_succ, r.kids_l]
  have hfr : ∀ (n x : Nat), lnk s x ≠ none → x ≠ s.root → leavesAt s' n x = leavesAt s n x := by
    intro n
    induction n with
    | zero => intro x _ _; rfl
    | succ n ih =>
      intro x hx hxr
      rw [leavesAt_succ, leavesAt_succ, r.kids_ne hxr (by intro e; subst e; exact hx r.l_fresh)]
      apply flatMap_congr'
      intro a ha
      cases a with
      | leaf l => rfl
      | internal y =>
        obtain ⟨i, hi⟩ := mem_kids.mp ha
        refine ih y (by rw [(w.kin hi).2]; simp) ?_
        intro e; subst e; exact w.root_not_kid hi
  apply flatMap_congr'
  intro a ha
  cases a with
  | leaf l => rfl
  | internal y =>
    obtain ⟨i, hi⟩ := mem_kids.mp ha
    refine hfr k y (by rw [(w.kin hi).2]; simp) ?_
    intro e; subst e; exact w.root_not_kid hi

variable {B : Trait E C D} {A : Law B}

/-- caches of the taller tree from the lower one -/
theorem cinv_up (r : Lift s s' l) (w : WF s lvl h) {X : Idx → Prop} (ci : CInv A s X)
    (hroot : ∀ c ∈ GB.chs s' s.root, EntryOK A s' c) : CInv A s' X := by
  intro q c hc hx
  by_cases h1 : q = s.root
  · subst h1; exact hroot c hc
  · have hc0 : ∃ q0, c ∈ GB.chs s q0 := by
      by_cases h2 : q = l
      · subst h2; rw [r.c_l] at hc; exact ⟨_, hc⟩
      · rw [r.chs q h1 h2] at hc; exact ⟨_, hc⟩
    obtain ⟨q0, hc0⟩ := hc0
    have ho := ci q0 c hc0 hx
    unfold EntryOK at *
    cases ha : c.arena with
    | leaf x => rw [ha] at ho; simp only [r.elm]; exact ho
    | internal y =>
      rw [ha] at ho
      simp only at ho ⊢
      rw [ho]
      obtain ⟨i, hi⟩ := List.mem_iff_getElem?.mp hc0
      have he : Edge s q0 i (.internal y) := edge_chs.mpr ⟨c, hi, ha⟩
      have h3 : y ≠ s.root := by intro e; subst e; exact w.root_not_kid he
      have h4 : y ≠ l := by intro e; have := (w.kin he).2; rw [e, r.l_fresh] at this; cases this
      rw [cch, cch, r.chs y h3 h4]

theorem cok_up (r : Lift s s' l) (co : COk A s) (hroot : ∀ c ∈ GB.chs s' s.root, A.okC c.cache) : COk A s' := by
  intro q c hc
  by_cases h1 : q = s.root
  · subst h1; exact hroot c hc
  · by_cases h2 : q = l
    · subst h2; rw [r.c_l] at hc; exact co _ c hc
    · rw [r.chs q h1 h2] at hc; exact co _ c hc

theorem cinv_down (r : Lift s s' l) (w : WF s lvl h) {X : Idx → Prop} (ci : CInv A s' X) : CInv A s X := by
  intro q c hc hx
  have hc0 : ∃ q0, c ∈ GB.chs s' q0 := by
    by_cases h1 : q = s.root
    · subst h1; rw [← r.c_l] at hc; exact ⟨_, hc⟩
    · have h2 : q ≠ l := by
        intro e
        subst e
        rw [chs_none r.l_fresh] at hc
        simp at hc
      rw [← r.chs q h1 h2] at hc; exact ⟨_, hc⟩
  obtain ⟨q0, hc0⟩ := hc0
  have ho := ci q0 c hc0 hx
  unfold EntryOK at *
  cases ha : c.arena with
  | leaf x => rw [ha] at ho; simp only [← r.elm]; exact ho
  | internal y =>
    rw [ha] at ho
    simp only at ho ⊢
    rw [ho]
    obtain ⟨i, hi⟩ := List.mem_iff_getElem?.mp hc
    have he : Edge s q i (.internal y) := edge_chs.mpr ⟨c, hi, ha⟩
    have h3 : y ≠ s.root := by intro e; subst e; exact w.root_not_kid he
    have h4 : y ≠ l := by intro e; have := (w.kin he).2; rw [e, r.l_fresh] at this; cases this
    rw [cch, cch, r.chs y h3 h4]

theorem cok_down (r : Lift s s' l) (co : COk A s') : COk A s := by
  intro q c hc
  by_cases h1 : q = s.root
  · subst h1; rw [← r.c_l] at hc; exact co _ c hc
  · by_cases h2 : q = l
    · subst h2
      rw [chs_none r.l_fresh] at hc
      simp at hc
    · rw [← r.chs q h1 h2] at hc; exact co _ c hc

end Lift
end GB

import Verif.Proof.Lift

/-!
# Splitting nodes
-/

namespace GB
variable {E C D : Type}
open Tree

/-! ## Views after allocation and removal -/

/-- allocation of an internal node -/
def allocIn (s : Tree E C) (N : Node C) : Tree E C := { s with inn := (s.inn.insert N).2 }

section
variable (s : Tree E C) (N : Node C)

theorem lnk_alloc (y : Nat) : lnk (allocIn s N) y =
    if y = s.inn.items.length then some (N.parent, N.slot) else lnk s y := by
  simp only [lnk, allocIn, Arena.get_insert]
  split <;> simp

theorem chs_alloc (y : Nat) : chs (allocIn s N) y =
    if y = s.inn.items.length then N.children else chs s y := by
  simp only [chs, allocIn, Arena.get_insert]
  by_cases h : y = s.inn.items.length <;> simp [h]

@[simp] theorem lpar_alloc (y : Nat) : lpar (allocIn s N) y = lpar s y := rfl
@[simp] theorem elm_alloc (y : Nat) : elm (allocIn s N) y = elm s y := rfl
@[simp] theorem items_alloc : (allocIn s N).inn.items.length = s.inn.items.length + 1 := by
  simp [allocIn, Arena.insert]
@[simp] theorem root_alloc : (allocIn s N).root = s.root := rfl
@[simp] theorem rootCache_alloc : (allocIn s N).rootCache = s.rootCache := rfl
@[simp] theorem lf_alloc : (allocIn s N).lf = s.lf := rfl

end

theorem lnk_fresh (s : Tree E C) : lnk s s.inn.items.length = none := by
  rw [lnk_none]
  exact Arena.get_ge _ (Nat.le_refl _)

theorem lnk_ge (s : Tree E C) {y : Nat} (h : s.inn.items.length ≤ y) : lnk s y = none := by
  rw [lnk_none]
  exact Arena.get_ge _ h


theorem splitNode_eq (B : Trait E C D) (s : Tree E C) (x : Nat) {N : Node C} (hN : s.inn.get x = some N) :
    splitNode B s x = (do
      let s2 := allocIn (s.setIn x { N with children := N.children.take (N.children.length / 2) })
        ⟨N.parent, SLOT_MAX, []⟩
      let left ← s2.getIn x
      let (thisCache, _) ← calcCache B left B.dflt none
      let s3 ← reparent s2 (N.children.drop (N.children.length / 2)) s.inn.items.length 0
      let right ← s3.getIn s.inn.items.length
      let right := { right with children := N.children.drop (N.children.length / 2) }
      let s4 := s3.setIn s.inn.items.length right
      let (rightCache, _) ← calcCache B right B.dflt none
      pure ((N.parent, N.slot, thisCache, ⟨.internal s.inn.items.length, rightCache⟩), s4)) := by
  unfold splitNode
  simp only [getIn_ok hN, bind_ok]
  have : (s.setIn x { N with children := N.children.take (N.children.length / 2) }).inn.items.length
    = s.inn.items.length := by simp
  simp only [allocIn, Arena.insert, this]

section
variable {B : Trait E C D} {A : Law B} {s : Tree E C} {lvl : Nat → Nat} {h : Nat}

theorem kids_live (w : WF s lvl h) {x : Nat} {c : Child C} (hc : c ∈ chs s x) : Live s c.arena := by
  obtain ⟨i, hi⟩ := List.mem_iff_getElem?.mp hc
  have he : Edge s x i c.arena := edge_chs.mpr ⟨c, hi, rfl⟩
  cases ha : c.arena with
  | leaf l => rw [ha] at he; simp [Live, (w.klf he).2]
  | internal l => rw [ha] at he; simp [Live, (w.kin he).2]

theorem splitNode_spec (w : WF s lvl h) (cok : COk A s) {x slot : Nat} {par : Option Nat}
    (hx : lnk s x = some (par, slot)) (hlen : 2 ≤ (chs s x).length) :
    ∃ s', splitNode B s x = .ok ((par, slot, A.total (((chs s x).take ((chs s x).length / 2)).map Child.cache),
        ⟨.internal s.inn.items.length, A.total (((chs s x).drop ((chs s x).length / 2)).map Child.cache)⟩), s') ∧
      s'.root = s.root ∧ s'.rootCache = s.rootCache ∧ s'.inn.items.length = s.inn.items.length + 1 ∧
      s'.lf.items.length = s.lf.items.length ∧
      (∀ y, lnk s' y = if y = s.inn.items.length then some (par, SLOT_MAX) else
        orLnk (look (reparentEntries ((chs s x).drop ((chs s x).length / 2)) s.inn.items.length 0) (.internal y))
          (lnk s y)) ∧
      (∀ y, chs s' y = if y = s.inn.items.length then (chs s x).drop ((chs s x).length / 2)
        else if y = x then (chs s x).take ((chs s x).length / 2) else chs s y) ∧
      (∀ l, lpar s' l =
        orPar (look (reparentEntries ((chs s x).drop ((chs s x).length / 2)) s.inn.items.length 0) (.leaf l))
          (lpar s l)) ∧
      (∀ l, elm s' l = elm s l) := by
  have hN := get_of_lnk hx
  rw [splitNode_eq B s x hN]
  have hlive : lnk s x ≠ none := by rw [hx]; simp
  have hxr : x ≠ s.inn.items.length := by have := w.lnk_lt hlive; omega
  simp only
  generalize hs2 : allocIn (s.setIn x ⟨par, slot, (chs s x).take ((chs s x).length / 2)⟩)
    ⟨par, SLOT_MAX, []⟩ = s2
  have l2 : ∀ y, lnk s2 y = if y = s.inn.items.length then some (par, SLOT_MAX) else lnk s y := by
    intro y
    rw [← hs2, lnk_alloc, items_setIn, lnk_setIn s hlive]
    by_cases h1 : y = s.inn.items.length
    · simp [h1]
    · rw [if_neg h1, if_neg h1]
      split
      · next e => subst e; exact hx.symm
      · rfl
  have c2 : ∀ y, chs s2 y = if y = s.inn.items.length then [] else
      if y = x then (chs s x).take ((chs s x).length / 2) else chs s y := by
    intro y
    rw [← hs2, chs_alloc, items_setIn, chs_setIn s hlive]
  have p2 : ∀ y, lpar s2 y = lpar s y := by intro y; rw [← hs2]; rfl
  have e2 : ∀ y, elm s2 y = elm s y := by intro y; rw [← hs2]; rfl
  have hx2 : s2.inn.get x = some ⟨par, slot, (chs s x).take ((chs s x).length / 2)⟩ := by
    have := get_of_lnk (s := s2) (x := x) (p := par) (i := slot) (by rw [l2, if_neg hxr, hx])
    rw [this, c2, if_neg hxr, if_pos rfl]
  rw [getIn_ok hx2, bind_ok]
  obtain ⟨d, h1, -⟩ := calcCache_ok (A := A) (N := ⟨par, slot, (chs s x).take ((chs s x).length / 2)⟩)
    (Or.inl (by
      intro e
      have := congrArg List.length e
      simp only [List.length_take, List.length_nil] at this
      omega))
    (fun c hc => cok x c (List.mem_of_mem_take hc)) B.dflt
  rw [h1, bind_ok]
  obtain ⟨s3, r1, r2, r3, r4, r5, r6, r7, r8, r9⟩ := applyReparent_spec
    (reparentEntries ((chs s x).drop ((chs s x).length / 2)) s.inn.items.length 0) s2 (by
      intro e he
      obtain ⟨c, hc, hce⟩ := mem_entries he
      have := kids_live w (List.mem_of_mem_drop hc)
      rw [hce] at this
      cases ha : e.1 with
      | leaf l => rw [ha] at this; simp only [Live] at *; rw [p2]; exact this
      | internal l =>
        rw [ha] at this
        simp only [Live] at *
        rw [l2]
        split
        · simp
        · exact this)
  rw [← reparent_eq] at r1
  simp only [r1, bind_ok]
  have hr3 : lnk s3 s.inn.items.length = some (par, SLOT_MAX) := by
    rw [r6, look_entries_none, l2, if_pos rfl, orLnk_none]
    intro hm
    obtain ⟨c, hc, hca⟩ := List.mem_map.mp hm
    have := kids_live w (List.mem_of_mem_drop hc)
    rw [hca] at this
    simp [Live, lnk_fresh] at this
  have hR := get_of_lnk hr3
  rw [getIn_ok hR, bind_ok]
  obtain ⟨d, h1, -⟩ := calcCache_ok (A := A) (N := ⟨par, SLOT_MAX, (chs s x).drop ((chs s x).length / 2)⟩)
    (Or.inl (by
      intro e
      have := congrArg List.length e
      simp at this
      omega))
    (fun c hc => cok x c (List.mem_of_mem_drop hc)) B.dflt
  simp only [h1, bind_ok]
  have hlive3 : lnk s3 s.inn.items.length ≠ none := by rw [hr3]; simp
  refine ⟨_, rfl, ?_, ?_, ?_, ?_, ?_, ?_, ?_, ?_⟩
  · show s3.root = _; rw [r2, ← hs2]; rfl
  · show s3.rootCache = _; rw [r3, ← hs2]; rfl
  · rw [items_setIn, r4, ← hs2, items_alloc, items_setIn]
  · show s3.lf.items.length = _; rw [r5, ← hs2]; rfl
  · intro y
    rw [lnk_setIn _ hlive3]
    split
    · rfl
    · next hy =>
      rw [r6, l2, if_neg hy]
  · intro y
    rw [chs_setIn _ hlive3]
    split
    · rfl
    · next hy => rw [r7, c2, if_neg hy]
  · intro l
    rw [lpar_setIn, r8, p2]
  · intro l
    rw [elm_setIn, r9, e2]

/-- the new child list of the parent of a split node -/
def splitPar (P : List (Child C)) (slot : Nat) (ch : Child C) (c1 : C) (rc : Child C) : List (Child C) :=
  (P.set slot { ch with cache := c1 }).take (slot + 1) ++ rc :: (P.set slot { ch with cache := c1 }).drop (slot + 1)

theorem map_arena_set {P : List (Child C)} {i : Nat} {ch : Child C} {c1 : C} (hs : P[i]? = some ch) :
    (P.set i { ch with cache := c1 }).map Child.arena = P.map Child.arena := by
  rw [List.map_set]
  apply List.ext_getElem?
  intro j
  rw [List.getElem?_set]
  split
  · next e =>
    subst e
    have := (List.getElem?_eq_some_iff.mp hs).1
    rw [List.getElem?_map, hs]
    simp [this]
  · rfl

theorem splitPar_arena {P : List (Child C)} {slot : Nat} {ch : Child C} {c1 : C} {rc : Child C}
    (hs : P[slot]? = some ch) : (splitPar P slot ch c1 rc).map Child.arena =
      (P.map Child.arena).take (slot + 1) ++ rc.arena :: (P.map Child.arena).drop (slot + 1) := by
  rw [splitPar, List.map_append, List.map_cons, List.map_take, List.map_drop, map_arena_set hs]

theorem splitPar_edge {P : List (Child C)} {slot : Nat} {ch : Child C} {c1 : C} {rc : Child C}
    (hs : P[slot]? = some ch) (j : Nat) (a : Idx) :
    ((splitPar P slot ch c1 rc).map Child.arena)[j]? = some a ↔
      (j ≤ slot ∧ (P.map Child.arena)[j]? = some a) ∨ (j = slot + 1 ∧ a = rc.arena) ∨
      (slot + 2 ≤ j ∧ (P.map Child.arena)[j - 1]? = some a) := by
  have hlt := (List.getElem?_eq_some_iff.mp hs).1
  rw [splitPar_arena hs]
  have hlt' : slot < (P.map Child.arena).length := by simpa using hlt
  generalize P.map Child.arena = K at *
  grind

/-- One level of `split` at a non-root node. -/
theorem splitStep (w : WF s lvl h) (cok : COk A s) {x slot p : Nat} {ch : Child C}
    (hx : lnk s x = some (some p, slot)) (hch : (chs s p)[slot]? = some ch)
    (hlen : 2 ≤ (chs s x).length) (hpl : (chs s p).length < MAXC) :
    ∃ s4 s6, splitNode B s x = .ok ((some p, slot, A.total (((chs s x).take ((chs s x).length / 2)).map Child.cache),
        ⟨.internal s.inn.items.length, A.total (((chs s x).drop ((chs s x).length / 2)).map Child.cache)⟩), s4) ∧
      lnk s4 p ≠ none ∧ chs s4 p = chs s p ∧ (∃ q i, lnk s4 p = some (q, i) ∧ 
      vinsert ((chs s4 p).set slot { ch with cache := A.total (((chs s x).take ((chs s x).length / 2)).map Child.cache) })
        (slot + 1) ⟨.internal s.inn.items.length, A.total (((chs s x).drop ((chs s x).length / 2)).map Child.cache)⟩ =
          .ok (chs s6 p) ∧ 
      updSlotsFrom (s4.setIn p ⟨q, i, chs s6 p⟩) p (slot + 1) = .ok s6) ∧
      Regroup s s6 p ∧ s6.inn.items.length = s.inn.items.length + 1 ∧ s6.rootCache = s.rootCache ∧
      s6.lf.items.length = s.lf.items.length ∧
      chs s6 p = splitPar (chs s p) slot ch (A.total (((chs s x).take ((chs s x).length / 2)).map Child.cache))
        ⟨.internal s.inn.items.length, A.total (((chs s x).drop ((chs s x).length / 2)).map Child.cache)⟩ ∧
      chs s6 x = (chs s x).take ((chs s x).length / 2) ∧
      chs s6 s.inn.items.length = (chs s x).drop ((chs s x).length / 2) ∧
      (∀ y, y ≠ x → y ≠ p → y ≠ s.inn.items.length → chs s6 y = chs s y) ∧
      (∀ y, y ≠ s.inn.items.length → (lnk s6 y = none ↔ lnk s y = none)) ∧
      lnk s6 s.inn.items.length = some (some p, slot + 1) := by
  obtain ⟨he, hxr0⟩ := w.lnk_edge hx
  have hxl := (w.kin he).1
  have hplive := edge_live he
  have hca : ch.arena = .internal x := by
    obtain ⟨c, hc, ha⟩ := edge_chs.mp he
    rw [hch] at hc
    cases hc
    exact ha
  have hxlive : lnk s x ≠ none := by rw [hx]; simp
  obtain ⟨s4, f1, f2, f3, f4, f5, f6, f7, f8, f9⟩ := splitNode_spec (A := A) w cok hx hlen
  refine ⟨s4, ?_⟩
  generalize hr : s.inn.items.length = r at *
  generalize hk : (chs s x).length / 2 = k at *
  generalize hc1 : A.total (((chs s x).take k).map Child.cache) = c1 at *
  generalize hc2 : A.total (((chs s x).drop k).map Child.cache) = c2 at *
  have hrn : lnk s r = none := by rw [← hr]; exact lnk_fresh s
  have hpr : p ≠ r := by intro e; rw [e] at hplive; exact hplive hrn
  have hxr : x ≠ r := by intro e; rw [e] at hxlive; exact hxlive hrn
  have hxp : x ≠ p := kid_ne_self w he
  have hkR : ((chs s x).drop k).map Child.arena = (kids s x).drop k := by rw [kids_chs, List.map_drop]
  have ndR : (((chs s x).drop k).map Child.arena).Nodup := by
    rw [hkR]; exact (w.kids_nodup x).sublist (List.drop_sublist _ _)
  -- the look-up in the list of re-parented children
  have lk1 : ∀ (j : Nat) (a : Idx), ((kids s x).drop k)[j]? = some a →
      look (reparentEntries ((chs s x).drop k) r 0) a = some (r, j) := by
    intro j a hj
    rw [← hkR, List.getElem?_map, Option.map_eq_some_iff] at hj
    obtain ⟨c, hc, rfl⟩ := hj
    rw [look_entries_some ndR hc, Nat.zero_add]
  have lk0 : ∀ a, a ∉ (kids s x).drop k → look (reparentEntries ((chs s x).drop k) r 0) a = none := by
    intro a ha
    exact look_entries_none (by rw [hkR]; exact ha)
  have lkx : ∀ a, a ∉ kids s x → look (reparentEntries ((chs s x).drop k) r 0) a = none :=
    fun a ha => lk0 a (fun hm => ha (List.mem_of_mem_drop hm))
  -- nodes that are not children of `x`
  have nk : ∀ y, lvl x ≤ lvl y → Idx.internal y ∉ kids s x := by
    intro y hy hm
    obtain ⟨j, hj⟩ := mem_kids.mp hm
    have := (w.kin hj).1
    omega
  have nkp : ∀ q j y, Edge s q j (.internal y) → q ≠ x → Idx.internal y ∉ kids s x := by
    intro q j y hj hq hm
    obtain ⟨j2, hj2⟩ := mem_kids.mp hm
    exact hq (w.kid_in_inj hj hj2).1
  have l4p : lnk s4 p = lnk s p := by
    rw [f6, if_neg hpr, lkx _ (nk p (by omega)), orLnk_none]
  have hp4 : lnk s4 p ≠ none := by rw [l4p]; exact hplive
  have c4p : chs s4 p = chs s p := by rw [f7, if_neg hpr, if_neg (Ne.symm hxp)]
  obtain ⟨⟨q, i⟩, hqi⟩ := Option.ne_none_iff_exists'.mp hp4
  have hv : vinsert ((chs s p).set slot { ch with cache := c1 }) (slot + 1) ⟨.internal r, c2⟩ =
      .ok (splitPar (chs s p) slot ch c1 ⟨.internal r, c2⟩) := by
    unfold vinsert splitPar
    have := (List.getElem?_eq_some_iff.mp hch).1
    rw [if_pos (by simp; omega)]
  generalize hP' : splitPar (chs s p) slot ch c1 ⟨.internal r, c2⟩ = P' at *
  -- the state with the new child list
  generalize hs5 : s4.setIn p ⟨q, i, P'⟩ = s5 at *
  have l5 : ∀ y, lnk s5 y = lnk s4 y := by
    intro y
    rw [← hs5, lnk_setIn s4 hp4]
    split
    · next e => subst e; exact hqi.symm
    · rfl
  have c5 : ∀ y, chs s5 y = if y = p then P' else chs s4 y := by
    intro y
    rw [← hs5, chs_setIn s4 hp4]
  have e5 : ∀ (j : Nat) (a : Idx), Edge s5 p j a ↔ (j ≤ slot ∧ Edge s p j a) ∨ (j = slot + 1 ∧ a = .internal r) ∨
      (slot + 2 ≤ j ∧ Edge s p (j - 1) a) := by
    intro j a
    simp only [Edge]
    rw [kids_chs s5, c5, if_pos rfl, ← hP', splitPar_edge hch, kids_chs s]
  have k5 : kids s5 p = (kids s p).take (slot + 1) ++ .internal r :: (kids s p).drop (slot + 1) := by
    rw [kids_chs s5, c5, if_pos rfl, ← hP', splitPar_arena hch, kids_chs s]
  have hrk : Idx.internal r ∉ kids s p := by
    intro hm
    obtain ⟨j, hj⟩ := mem_kids.mp hm
    have := (w.kin hj).2
    rw [hrn] at this
    cases this
  have m5 : ∀ a, a ∈ kids s5 p ↔ a = .internal r ∨ a ∈ kids s p := by
    intro a
    rw [k5]
    constructor
    · intro hm
      rcases List.mem_append.mp hm with h1 | h1
      · exact Or.inr (List.mem_of_mem_take h1)
      · rcases List.mem_cons.mp h1 with h1 | h1
        · exact Or.inl h1
        · exact Or.inr (List.mem_of_mem_drop h1)
    · intro hm
      rcases hm with h1 | h1
      · simp [h1]
      · rw [← List.take_append_drop (slot + 1) (kids s p)] at h1
        rcases List.mem_append.mp h1 with h1 | h1
        · simp [h1]
        · simp [h1]
  -- links in s4 of the children of p
  have l4k : ∀ j y, Edge s p j (.internal y) → lnk s4 y = some (some p, j) := by
    intro j y hj
    have hy := (w.kin hj).2
    have hyr : y ≠ r := by intro e; rw [e, hrn] at hy; cases hy
    rw [f6, if_neg hyr, lkx _ (nkp p j y hj (Ne.symm hxp)), orLnk_none, hy]
  have l4r : lnk s4 r = some (some p, SLOT_MAX) := by rw [f6, if_pos rfl]
  have kin_p : ∀ a ∈ kids s p, ∃ y, a = .internal y := by
    intro a ha
    obtain ⟨j, hj⟩ := mem_kids.mp ha
    cases a with
    | internal y => exact ⟨y, rfl⟩
    | leaf l =>
      have := (w.klf hj).1
      have := (w.lvl_pos' hxlive).1
      omega
  obtain ⟨s6, g1, g2, g3, g4, g5⟩ := updSlotsFrom_in (s := s5) (p := p) (index := slot + 1)
    (by rw [l5]; exact hp4)
    (by
      intro a ha
      rcases (m5 a).mp ha with rfl | hm
      · exact ⟨r, rfl, by rw [l5, l4r]; simp⟩
      · obtain ⟨y, rfl⟩ := kin_p a hm
        obtain ⟨j, hj⟩ := mem_kids.mp hm
        exact ⟨y, rfl, by rw [l5, l4k j y hj]; simp⟩)
    (by
      rw [k5]
      have nd := w.kids_nodup p
      rw [← List.take_append_drop (slot + 1) (kids s p)] at nd
      rw [List.nodup_append] at nd ⊢
      refine ⟨nd.1, ?_, ?_⟩
      · rw [List.nodup_cons]
        exact ⟨fun hm => hrk (List.mem_of_mem_drop hm), nd.2.1⟩
      · intro a ha b hb e
        subst e
        rcases List.mem_cons.mp hb with h1 | h1
        · subst h1; exact hrk (List.mem_of_mem_take ha)
        · exact nd.2.2 a ha a h1 rfl)
  have c6 : ∀ y, chs s6 y = if y = p then P' else chs s4 y := by
    intro y; rw [g2.chs, c5]
  have c6p : chs s6 p = P' := by rw [c6, if_pos rfl]
  have k6 : ∀ y, kids s6 y = kids s5 y := by intro y; rw [kids_chs, kids_chs, g2.chs]
  have c6x : chs s6 x = (chs s x).take k := by
    rw [c6, if_neg hxp, f7, if_neg hxr, if_pos rfl]
  have c6r : chs s6 r = (chs s x).drop k := by
    rw [c6, if_neg (Ne.symm hpr), f7, if_pos rfl]
  have c6o : ∀ y, y ≠ x → y ≠ p → y ≠ r → chs s6 y = chs s y := by
    intro y h1 h2 h3
    rw [c6, if_neg h2, f7, if_neg h3, if_neg h1]
  -- links
  have l6k : ∀ (j y : Nat), Edge s5 p j (.internal y) → lnk s6 y = some (some p, j) := by
    intro j y hj
    by_cases hjs : slot + 1 ≤ j
    · rcases (e5 j _).mp hj with ⟨h1, h2⟩ | ⟨h1, h2⟩ | ⟨h1, h2⟩
      · omega
      · cases h2
        exact g5 j r _ _ hjs hj (by rw [l5]; exact l4r)
      · exact g5 j y _ _ hjs hj (by rw [l5]; exact l4k _ y h2)
    · rcases (e5 j _).mp hj with ⟨h1, h2⟩ | ⟨h1, h2⟩ | ⟨h1, h2⟩
      · rw [g4, l5, l4k j y h2]
        intro hm
        obtain ⟨j2, hj2⟩ := List.mem_iff_getElem?.mp hm
        rw [List.getElem?_drop] at hj2
        rcases (e5 _ _).mp hj2 with ⟨h3, h4⟩ | ⟨h3, h4⟩ | ⟨h3, h4⟩
        · omega
        · cases h4; exact hrk (mem_kids.mpr ⟨j, h2⟩)
        · have := (w.kid_in_inj h2 h4).2
          omega
      · omega
      · omega
  have l6o : ∀ y, Idx.internal y ∉ kids s5 p → lnk s6 y = lnk s4 y := by
    intro y hy
    rw [g4 y (fun hm => hy (List.mem_of_mem_drop hm)), l5]
  have p6 : ∀ l, lpar s6 l = orPar (look (reparentEntries ((chs s x).drop k) r 0) (.leaf l)) (lpar s l) := by
    intro l
    have : lpar s6 l = lpar s4 l := by
      unfold lpar
      rw [g3, ← hs5]
      rfl
    rw [this, f8]
  have el6 : ∀ l, elm s6 l = elm s l := by
    intro l
    rw [g2.elm, ← hs5, elm_setIn, f9]
  -- children of x and r in s6
  have ndx := w.kids_nodup x
  have kx6 : kids s6 x = (kids s x).take k := by rw [kids_chs, c6x, List.map_take, ← kids_chs]
  have kr6 : kids s6 r = (kids s x).drop k := by rw [kids_chs, c6r, List.map_drop, ← kids_chs]
  have takeNot : ∀ (j : Nat) (a : Idx), ((kids s x).take k)[j]? = some a → Edge s x j a ∧ a ∉ (kids s x).drop k := by
    intro j a hj
    have hmem : a ∈ (kids s x).take k := List.mem_iff_getElem?.mpr ⟨j, hj⟩
    rw [List.getElem?_take] at hj
    split at hj
    · refine ⟨hj, fun hm => ?_⟩
      rw [← List.take_append_drop k (kids s x), List.nodup_append] at ndx
      exact ndx.2.2 a hmem a hm rfl
    · cases hj
  have rg : Regroup s s6 p := by
    refine ⟨?_, ?_, el6, ?_, ?_, ?_, ?_, ?_, ?_, ?_, ?_, ?_, ?_⟩
    · rw [g2.root, ← hs5]; exact f2
    · rw [g2.items, ← hs5, items_setIn, f4]; omega
    · intro l
      rw [p6]
      by_cases hm : Idx.leaf l ∈ (kids s x).drop k
      · obtain ⟨j, hj⟩ := List.mem_iff_getElem?.mp hm
        rw [lk1 j _ hj]
        have : Idx.leaf l ∈ kids s x := List.mem_of_mem_drop hm
        obtain ⟨j2, hj2⟩ := mem_kids.mp this
        simp [(w.klf hj2).2]
      · rw [lk0 _ hm]; rfl
    · rw [l6o, l4p]
      intro hm
      rcases (m5 _).mp hm with h1 | h1
      · cases h1; exact hpr rfl
      · obtain ⟨j, hj⟩ := mem_kids.mp h1
        exact kid_ne_self w hj rfl
    · intro j a hj
      rw [Edge, k6] at hj
      have hm := (m5 a).mp (mem_kids.mpr ⟨j, hj⟩)
      rcases hm with rfl | hm
      · exact ⟨r, rfl, l6k j r hj, Or.inl hrn⟩
      · obtain ⟨y, rfl⟩ := kin_p a hm
        exact ⟨y, rfl, l6k j y hj, Or.inr hm⟩
    · intro y h1 h2
      exact absurd (by rw [k6]; exact (m5 _).mpr (Or.inr h1)) h2
    · -- internal grandchildren
      intro g j y hg hj
      rw [k6, m5] at hg
      have hy5 : ∀ j2 q2, q2 ≠ p → Edge s q2 j2 (.internal y) → Idx.internal y ∉ kids s5 p := by
        intro j2 q2 hq2 hj2 hm
        rcases (m5 _).mp hm with h1 | h1
        · cases h1
          have := (w.kin hj2).2
          rw [hrn] at this
          cases this
        · obtain ⟨j3, hj3⟩ := mem_kids.mp h1
          exact hq2 (w.kid_in_inj hj2 hj3).1
      have hyr : ∀ j2 q2, Edge s q2 j2 (.internal y) → y ≠ r := by
        intro j2 q2 hj2 e
        have := (w.kin hj2).2
        rw [e, hrn] at this
        cases this
      rcases hg with hg | hg
      · cases hg
        rw [Edge, kr6] at hj
        have hedge : Edge s x (k + j) (.internal y) := by
          rw [List.getElem?_drop] at hj; exact hj
        rw [l6o y (hy5 _ _ hxp hedge), f6, if_neg (hyr _ _ hedge), lk1 j _ hj]
        rfl
      · obtain ⟨j3, hj3⟩ := mem_kids.mp hg
        have hgp : g ≠ p := kid_ne_self w hj3
        by_cases hgx : g = x
        · subst hgx
          rw [Edge, kx6] at hj
          obtain ⟨h1, h2⟩ := takeNot j _ hj
          rw [l6o y (hy5 _ _ hxp h1), f6, if_neg (hyr _ _ h1), lk0 _ h2, orLnk_none, (w.kin h1).2]
        · have hgr : g ≠ r := by intro e; subst e; exact hrk hg
          have hedge : Edge s g j (.internal y) := by
            rw [Edge, kids_chs, c6o g hgx hgp hgr, ← kids_chs] at hj; exact hj
          rw [l6o y (hy5 _ _ hgp hedge), f6, if_neg (hyr _ _ hedge), lkx _ (nkp _ _ _ hedge hgx), orLnk_none,
            (w.kin hedge).2]
    · intro g j l hg hj
      rw [k6, m5] at hg
      rcases hg with hg | hg
      · cases hg
        rw [Edge, kr6] at hj
        rw [p6, lk1 j _ hj]
        rfl
      · obtain ⟨j3, hj3⟩ := mem_kids.mp hg
        have hgp : g ≠ p := kid_ne_self w hj3
        by_cases hgx : g = x
        · subst hgx
          rw [Edge, kx6] at hj
          obtain ⟨h1, h2⟩ := takeNot j _ hj
          rw [p6, lk0 _ h2, orPar_none, (w.klf h1).2]
        · have hgr : g ≠ r := by intro e; subst e; exact hrk hg
          have hedge : Edge s g j (.leaf l) := by
            rw [Edge, kids_chs, c6o g hgx hgp hgr, ← kids_chs] at hj; exact hj
          rw [p6, lkx, orPar_none, (w.klf hedge).2]
          intro hm
          obtain ⟨j2, hj2⟩ := mem_kids.mp hm
          exact hgx (w.kid_lf_inj hedge hj2).1
    · intro y h1 h2 h3
      rw [k6] at h2
      have hyr : y ≠ r := by intro e; subst e; exact h2 ((m5 _).mpr (Or.inl rfl))
      rw [l6o y h2, f6, if_neg hyr, lkx, orLnk_none]
      exact h3 x (mem_kids.mpr ⟨slot, he⟩)
    · intro y h1 h2 h3
      rw [k6] at h3
      have hyr : y ≠ r := by intro e; subst e; exact h3 ((m5 _).mpr (Or.inl rfl))
      have hyx : y ≠ x := by intro e; subst e; exact h2 (mem_kids.mpr ⟨slot, he⟩)
      exact c6o y hyx h1 hyr
    · intro l h1
      rw [p6, lkx, orPar_none]
      exact h1 x (mem_kids.mpr ⟨slot, he⟩)
    · -- the grandchildren
      have hsp := set_split hch { ch with cache := c1 }
      have hP : P' = (chs s p).take slot ++ { ch with cache := c1 } :: ⟨.internal r, c2⟩ :: (chs s p).drop (slot + 1) := by
        have hlt := (List.getElem?_eq_some_iff.mp hch).1
        rw [← hP', splitPar, hsp.2]
        have hl : ((chs s p).take slot).length = slot := by simp; omega
        have e1 : (List.take slot (chs s p) ++ { ch with cache := c1 } :: List.drop (slot + 1) (chs s p)).take (slot + 1)
            = List.take slot (chs s p) ++ [{ ch with cache := c1 }] := by
          rw [List.take_append, hl, List.take_of_length_le (by omega)]
          simp
        have e2 : (List.take slot (chs s p) ++ { ch with cache := c1 } :: List.drop (slot + 1) (chs s p)).drop (slot + 1)
            = List.drop (slot + 1) (chs s p) := by
          rw [List.drop_append, hl, List.drop_of_length_le (by omega)]
          simp
        rw [e1, e2]
        simp
      have hoth : ∀ j c, (chs s p)[j]? = some c → j ≠ slot → chsI s6 c.arena = chsI s c.arena := by
        intro j c hj hne
        have hed : Edge s p j c.arena := edge_chs.mpr ⟨c, hj, rfl⟩
        obtain ⟨y, hy⟩ := kin_p _ (mem_kids.mpr ⟨j, hed⟩)
        rw [hy] at hed ⊢
        have h1 : y ≠ x := by intro e; subst e; exact hne (w.kid_in_inj hed he).2
        have h2 : y ≠ p := kid_ne_self w hed
        have h3 : y ≠ r := by intro e; subst e; exact hrk (mem_kids.mpr ⟨j, hed⟩)
        exact c6o y h1 h2 h3
      rw [grand, grand, c6p, hP]
      conv => rhs; rw [hsp.1]
      simp only [List.flatMap_append, List.flatMap_cons]
      have hcx : chsI s6 ch.arena = (chs s x).take k := by rw [hca]; exact c6x
      have hcx0 : chsI s ch.arena = chs s x := by rw [hca]; rfl
      have hcr : chsI s6 (.internal r) = (chs s x).drop k := c6r
      rw [hcx, hcx0, hcr]
      have ha : ((chs s p).take slot).flatMap (fun c => chsI s6 c.arena) =
          ((chs s p).take slot).flatMap (fun c => chsI s c.arena) := by
        apply flatMap_congr'
        intro c hc
        obtain ⟨j, hj⟩ := List.mem_iff_getElem?.mp hc
        rw [List.getElem?_take] at hj
        split at hj
        · exact hoth j c hj (by omega)
        · cases hj
      have hb : ((chs s p).drop (slot + 1)).flatMap (fun c => chsI s6 c.arena) =
          ((chs s p).drop (slot + 1)).flatMap (fun c => chsI s c.arena) := by
        apply flatMap_congr'
        intro c hc
        obtain ⟨j, hj⟩ := List.mem_iff_getElem?.mp hc
        rw [List.getElem?_drop] at hj
        exact hoth _ c hj (by omega)
      rw [ha, hb, ← List.append_assoc ((chs s x).take k), List.take_append_drop]
  refine ⟨s6, f1, hp4, c4p, ⟨q, i, hqi, ?_, ?_⟩, rg, ?_, ?_, ?_, c6p, c6x, c6r, c6o, ?_, ?_⟩
  · rw [c4p, c6p, hv]
  · rw [c6p, hs5]; exact g1
  · rw [g2.items, ← hs5, items_setIn, f4]
  · rw [g2.rootCache, ← hs5]; exact f3
  · rw [g3, ← hs5]; exact f5
  · intro y hyr
    by_cases hm : Idx.internal y ∈ kids s5 p
    · obtain ⟨j, hj⟩ := mem_kids.mp hm
      rw [l6k j y hj]
      rcases (m5 _).mp hm with h1 | h1
      · cases h1; exact absurd rfl hyr
      · obtain ⟨j2, hj2⟩ := mem_kids.mp h1
        simp [(w.kin hj2).2]
    · rw [l6o y hm, f6, if_neg hyr]
      by_cases hm2 : Idx.internal y ∈ (kids s x).drop k
      · obtain ⟨j, hj⟩ := List.mem_iff_getElem?.mp hm2
        rw [lk1 j _ hj]
        rw [List.getElem?_drop] at hj
        simp [(w.kin hj).2]
      · rw [lk0 _ hm2, orLnk_none]
  · exact l6k (slot + 1) r ((e5 _ _).mpr (Or.inr (Or.inl ⟨rfl, rfl⟩)))

end

end GB

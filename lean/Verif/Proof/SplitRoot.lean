import Verif.Proof.Split

/-!
# Splitting the root
-/

namespace GB
variable {E C D : Type}
open Tree

/-- removal of an internal node from the arena -/
def freeIn (s : Tree E C) (x : Nat) : Tree E C := { s with inn := s.inn.remove x }

section
variable (s : Tree E C) (x : Nat)

theorem lnk_free (y : Nat) : lnk (freeIn s x) y = if y = x then none else lnk s y := by
  simp only [lnk, freeIn, Arena.get_remove]
  split <;> simp

theorem chs_free (y : Nat) : chs (freeIn s x) y = if y = x then [] else chs s y := by
  simp only [chs, freeIn, Arena.get_remove]
  by_cases h : y = x <;> simp [h]

@[simp] theorem lpar_free (y : Nat) : lpar (freeIn s x) y = lpar s y := rfl
@[simp] theorem elm_free (y : Nat) : elm (freeIn s x) y = elm s y := rfl
@[simp] theorem items_free : (freeIn s x).inn.items.length = s.inn.items.length := by
  simp [freeIn]
@[simp] theorem root_free : (freeIn s x).root = s.root := rfl
@[simp] theorem rootCache_free : (freeIn s x).rootCache = s.rootCache := rfl
@[simp] theorem lf_free : (freeIn s x).lf = s.lf := rfl

end

section
variable {B : Trait E C D} {A : Law B} {s : Tree E C} {lvl : Nat → Nat} {h : Nat}

/-- The ghost state with an additional level: used only in proofs. -/
theorem lift_exists (w : WF s lvl h) (c0 : C) :
    ∃ t, Lift s t (s.inn.items.length + 1) ∧ chs t s.root = [⟨.internal (s.inn.items.length + 1), c0⟩] ∧
      t.inn.items.length = s.inn.items.length + 2 ∧ lnk t s.root = some (none, 0) := by
  obtain ⟨i0, hroot⟩ := w.root'
  have hrlive : lnk s s.root ≠ none := by rw [hroot]; simp
  have hrlt := w.lnk_lt hrlive
  generalize hr : s.inn.items.length = r at *
  have hrn : lnk s r = none := by rw [← hr]; exact lnk_fresh s
  have hln : lnk s (r + 1) = none := lnk_ge s (by omega)
  let t2 := allocIn (allocIn s ⟨none, 0, []⟩) ⟨some s.root, 0, chs s s.root⟩
  have l2 : ∀ y, lnk t2 y = if y = r + 1 then some (some s.root, 0) else if y = r then some (none, 0) else lnk s y := by
    intro y
    simp only [t2, lnk_alloc, items_alloc, hr]
  have c2 : ∀ y, chs t2 y = if y = r + 1 then chs s s.root else if y = r then [] else chs s y := by
    intro y
    simp only [t2, chs_alloc, items_alloc, hr]
  have hr2 : lnk (freeIn t2 r) s.root ≠ none := by
    rw [lnk_free, if_neg (by omega), l2, if_neg (by omega), if_neg (by omega)]; exact hrlive
  let t4 := (freeIn t2 r).setIn s.root ⟨none, 0, [⟨.internal (r + 1), c0⟩]⟩
  have l4 : ∀ y, lnk t4 y = if y = s.root then some (none, 0) else if y = r + 1 then some (some s.root, 0) else lnk s y := by
    intro y
    simp only [t4]
    rw [lnk_setIn _ hr2, lnk_free, l2]
    by_cases h1 : y = s.root
    · simp [h1]
    · rw [if_neg h1, if_neg h1]
      by_cases h2 : y = r
      · subst h2; rw [if_pos rfl, if_neg (by omega), hrn]
      · rw [if_neg h2, if_neg h2]
  have c4 : ∀ y, chs t4 y = if y = s.root then [⟨.internal (r + 1), c0⟩] else if y = r + 1 then chs s s.root else chs s y := by
    intro y
    simp only [t4]
    rw [chs_setIn _ hr2, chs_free, c2]
    by_cases h1 : y = s.root
    · simp [h1]
    · rw [if_neg h1, if_neg h1]
      by_cases h2 : y = r
      · subst h2; rw [if_pos rfl, if_neg (by omega), chs_none hrn]
      · rw [if_neg h2, if_neg h2]
  have p4 : ∀ l, lpar t4 l = lpar s l := fun _ => rfl
  have e4 : ∀ l, elm t4 l = elm s l := fun _ => rfl
  have nd := w.kids_nodup s.root
  rw [kids_chs] at nd
  obtain ⟨t, r1, r2, r3, r4, r5, r6, r7, r8, r9⟩ := applyReparent_spec
    (reparentEntries (chs s s.root) (r + 1) 0) t4 (by
      intro e he
      obtain ⟨c, hc, hce⟩ := mem_entries he
      have := kids_live w hc
      rw [hce] at this
      cases ha : e.1 with
      | leaf l => rw [ha] at this; exact this
      | internal y =>
        rw [ha] at this
        simp only [Live] at *
        rw [l4]
        split
        · simp
        · split
          · simp
          · exact this)
  have lk1 : ∀ (j : Nat) (a : Idx), Edge s s.root j a →
      look (reparentEntries (chs s s.root) (r + 1) 0) a = some (r + 1, j) := by
    intro j a hj
    obtain ⟨c, hc, rfl⟩ := edge_chs.mp hj
    rw [look_entries_some nd hc, Nat.zero_add]
  have lk0 : ∀ a, a ∉ kids s s.root → look (reparentEntries (chs s s.root) (r + 1) 0) a = none := by
    intro a ha
    exact look_entries_none (by rw [← kids_chs]; exact ha)
  have nroot : Idx.internal s.root ∉ kids s s.root := by
    intro hm; obtain ⟨j, hj⟩ := mem_kids.mp hm; exact w.root_not_kid hj
  have nl : Idx.internal (r + 1) ∉ kids s s.root := by
    intro hm; obtain ⟨j, hj⟩ := mem_kids.mp hm
    have := (w.kin hj).2
    rw [hln] at this
    cases this
  have ct : ∀ y, chs t y = if y = s.root then [⟨.internal (r + 1), c0⟩] else if y = r + 1 then chs s s.root else chs s y := by
    intro y; rw [r7, c4]
  have lt : ∀ y, lnk t y = orLnk (look (reparentEntries (chs s s.root) (r + 1) 0) (.internal y))
      (if y = s.root then some (none, 0) else if y = r + 1 then some (some s.root, 0) else lnk s y) := by
    intro y; rw [r6, l4]
  have pt : ∀ l, lpar t l = orPar (look (reparentEntries (chs s s.root) (r + 1) 0) (.leaf l)) (lpar s l) := by
    intro l; rw [r8, p4]
  refine ⟨t, ⟨?_, hln, ?_, ?_, ?_, ?_, ?_, ⟨i0, hroot⟩, ?_, ?_, ?_, ?_, ?_, ?_, ?_⟩, ?_, ?_, ?_⟩
  · rw [r2]; rfl
  · rw [kids_chs, ct, if_pos rfl]; rfl
  · rw [ct, if_neg (by omega), if_pos rfl]
  · intro y h1 h2; rw [ct, if_neg h1, if_neg h2]
  · rw [lt, lk0 _ nl, if_neg (by omega), if_pos rfl, orLnk_none]
  · exact ⟨0, by rw [lt, lk0 _ nroot, if_pos rfl, orLnk_none]⟩
  · intro y h1 h2 h3
    rw [lt, lk0 _ h3, if_neg h1, if_neg h2, orLnk_none]
  · intro y i h1 h2 h3
    obtain ⟨j, hj⟩ := mem_kids.mp h3
    rw [lt, lk1 j _ hj, (w.kin hj).2]
    simp
  · intro y h1 h2
    by_cases h3 : Idx.internal y ∈ kids s s.root
    · obtain ⟨j, hj⟩ := mem_kids.mp h3
      rw [lt, lk1 j _ hj, (w.kin hj).2]
      simp
    · rw [lt, lk0 _ h3, if_neg h1, if_neg h2, orLnk_none]
  · intro x h3
    rw [pt, lk0 _ h3, orPar_none]
  · intro x h3
    obtain ⟨j, hj⟩ := mem_kids.mp h3
    rw [pt, lk1 j _ hj, (w.klf hj).2]
    simp
  · intro x
    by_cases h3 : Idx.leaf x ∈ kids s s.root
    · obtain ⟨j, hj⟩ := mem_kids.mp h3
      rw [pt, lk1 j _ hj, (w.klf hj).2]
      simp
    · rw [pt, lk0 _ h3, orPar_none]
  · intro x; rw [r9, e4]
  · rw [ct, if_pos rfl]
  · rw [r4]
    simp [t4, t2, hr]
  · rw [lt, lk0 _ nroot, if_pos rfl, orLnk_none]

theorem splitRoot_eq (B : Trait E C D) (s : Tree E C) (nc c2 : C) {r : Nat} {RN : Node C}
    (hR : s.inn.get r = some RN) :
    splitRoot B s nc ⟨.internal r, c2⟩ = (do
      let root ← (s.setIn r { RN with slot := 1, parent := some s.root }).getIn s.root
      let s7 := allocIn ((s.setIn r { RN with slot := 1, parent := some s.root }).setIn s.root ⟨none, 0, []⟩)
        ⟨some s.root, 0, root.children⟩
      let newRoot ← s7.getIn s.root
      let newRoot := { newRoot with children := [⟨.internal s.inn.items.length, nc⟩, ⟨.internal r, c2⟩] }
      let (rc, _) ← calcCache B newRoot s.rootCache none
      let s9 ← reparent (s7.setIn s.root newRoot) root.children s.inn.items.length 0
      pure { s9 with rootCache := rc }) := by
  unfold splitRoot
  simp only [Idx.unwrapInternal, bind_ok, getIn_ok hR]
  have hroot : (s.setIn r { RN with slot := 1, parent := some s.root }).root = s.root := rfl
  simp only [hroot]
  congr 1
  funext root
  have : ((s.setIn r { RN with slot := 1, parent := some s.root }).setIn s.root ⟨none, 0, []⟩).inn.items.length
    = s.inn.items.length := by simp
  simp only [Arena.insert, this, allocIn]
  rfl

/-- `split` at the root. -/
theorem splitRoot_spec (w : WF s lvl h) (cok : COk A s) {slot : Nat}
    (hx : lnk s s.root = some (none, slot)) (hlen : 2 ≤ (chs s s.root).length) :
    ∃ s4 s' t, splitNode B s s.root = .ok ((none, slot,
        A.total (((chs s s.root).take ((chs s s.root).length / 2)).map Child.cache),
        ⟨.internal s.inn.items.length,
          A.total (((chs s s.root).drop ((chs s s.root).length / 2)).map Child.cache)⟩), s4) ∧
      splitRoot B s4 (A.total (((chs s s.root).take ((chs s s.root).length / 2)).map Child.cache))
        ⟨.internal s.inn.items.length,
          A.total (((chs s s.root).drop ((chs s s.root).length / 2)).map Child.cache)⟩ = .ok s' ∧
      Lift s t (s.inn.items.length + 1) ∧
      chs t s.root = [⟨.internal (s.inn.items.length + 1), A.total (cch s s.root)⟩] ∧
      t.inn.items.length = s.inn.items.length + 2 ∧
      Regroup t s' s.root ∧
      s'.inn.items.length = s.inn.items.length + 2 ∧
      s'.rootCache = A.total (cch s' s.root) ∧
      chs s' s.root = [⟨.internal (s.inn.items.length + 1),
          A.total (((chs s s.root).take ((chs s s.root).length / 2)).map Child.cache)⟩,
        ⟨.internal s.inn.items.length,
          A.total (((chs s s.root).drop ((chs s s.root).length / 2)).map Child.cache)⟩] ∧
      chs s' (s.inn.items.length + 1) = (chs s s.root).take ((chs s s.root).length / 2) ∧
      chs s' s.inn.items.length = (chs s s.root).drop ((chs s s.root).length / 2) ∧
      (∀ y, y ≠ s.root → y ≠ s.inn.items.length → y ≠ s.inn.items.length + 1 → chs s' y = chs s y) ∧
      (∀ y, y ≠ s.inn.items.length → y ≠ s.inn.items.length + 1 → (lnk s' y = none ↔ lnk s y = none)) ∧
      s'.lf.items.length = s.lf.items.length := by
  obtain ⟨s4, f1, f2, f3, f4, f5, f6, f7, f8, f9⟩ := splitNode_spec (A := A) w cok hx hlen
  obtain ⟨t, lift, ct, it, ot⟩ := lift_exists w (A.total (cch s s.root))
  refine ⟨s4, ?_⟩
  have hrlive : lnk s s.root ≠ none := by rw [hx]; simp
  have hrlt := w.lnk_lt hrlive
  have hokall : ∀ c ∈ chs s s.root, A.okC c.cache := fun c hc => cok _ c hc
  generalize hr : s.inn.items.length = r at *
  generalize hk : (chs s s.root).length / 2 = k at *
  have hokL : A.okC (A.total (((chs s s.root).take k).map Child.cache)) := by
    apply A.total_ok
    · intro e
      have := congrArg List.length e
      simp only [List.length_map, List.length_take, List.length_nil] at this
      omega
    · intro c hc
      obtain ⟨c2, h2, rfl⟩ := List.mem_map.mp hc
      exact hokall c2 (List.mem_of_mem_take h2)
  have hokR : A.okC (A.total (((chs s s.root).drop k).map Child.cache)) := by
    apply A.total_ok
    · intro e
      have := congrArg List.length e
      simp only [List.length_map, List.length_drop, List.length_nil] at this
      omega
    · intro c hc
      obtain ⟨c2, h2, rfl⟩ := List.mem_map.mp hc
      exact hokall c2 (List.mem_of_mem_drop h2)
  generalize hc1 : A.total (((chs s s.root).take k).map Child.cache) = c1 at *
  generalize hc2 : A.total (((chs s s.root).drop k).map Child.cache) = c2 at *
  have hrn : lnk s r = none := by rw [← hr]; exact lnk_fresh s
  have hln : lnk s (r + 1) = none := lnk_ge s (by omega)
  have hkL : ((chs s s.root).take k).map Child.arena = (kids s s.root).take k := by rw [kids_chs, List.map_take]
  have hkR : ((chs s s.root).drop k).map Child.arena = (kids s s.root).drop k := by rw [kids_chs, List.map_drop]
  have nd := w.kids_nodup s.root
  have ndL : (((chs s s.root).take k).map Child.arena).Nodup := by
    rw [hkL]; exact nd.sublist (List.take_sublist _ _)
  have ndR : (((chs s s.root).drop k).map Child.arena).Nodup := by
    rw [hkR]; exact nd.sublist (List.drop_sublist _ _)
  have disj : ∀ a, a ∈ (kids s s.root).take k → a ∈ (kids s s.root).drop k → False := by
    intro a h1 h2
    have nd := nd
    rw [← List.take_append_drop k (kids s s.root), List.nodup_append] at nd
    exact nd.2.2 a h1 a h2 rfl
  have nroot : Idx.internal s.root ∉ kids s s.root := by
    intro hm; obtain ⟨j, hj⟩ := mem_kids.mp hm; exact w.root_not_kid hj
  have nfresh : ∀ z, lnk s z = none → Idx.internal z ∉ kids s s.root := by
    intro z hz hm; obtain ⟨j, hj⟩ := mem_kids.mp hm
    have := (w.kin hj).2
    rw [hz] at this
    cases this
  have nl := nfresh _ hln
  have nr := nfresh _ hrn
  -- look-ups
  have lkR1 : ∀ (j : Nat) (a : Idx), ((kids s s.root).drop k)[j]? = some a →
      look (reparentEntries ((chs s s.root).drop k) r 0) a = some (r, j) := by
    intro j a hj
    rw [← hkR, List.getElem?_map, Option.map_eq_some_iff] at hj
    obtain ⟨c, hc, rfl⟩ := hj
    rw [look_entries_some ndR hc, Nat.zero_add]
  have lkR0 : ∀ a, a ∉ (kids s s.root).drop k → look (reparentEntries ((chs s s.root).drop k) r 0) a = none := by
    intro a ha
    exact look_entries_none (by rw [hkR]; exact ha)
  have lkL1 : ∀ (j : Nat) (a : Idx), ((kids s s.root).take k)[j]? = some a →
      look (reparentEntries ((chs s s.root).take k) (r + 1) 0) a = some (r + 1, j) := by
    intro j a hj
    rw [← hkL, List.getElem?_map, Option.map_eq_some_iff] at hj
    obtain ⟨c, hc, rfl⟩ := hj
    rw [look_entries_some ndL hc, Nat.zero_add]
  have lkL0 : ∀ a, a ∉ (kids s s.root).take k →
      look (reparentEntries ((chs s s.root).take k) (r + 1) 0) a = none := by
    intro a ha
    exact look_entries_none (by rw [hkL]; exact ha)
  have nd' : ∀ a, a ∉ kids s s.root → a ∉ (kids s s.root).drop k := fun a ha hm => ha (List.mem_of_mem_drop hm)
  have nt' : ∀ a, a ∉ kids s s.root → a ∉ (kids s s.root).take k := fun a ha hm => ha (List.mem_of_mem_take hm)
  -- run splitRoot
  have l4r : lnk s4 r = some (none, SLOT_MAX) := by rw [f6, if_pos rfl]
  have l4root : lnk s4 s.root = some (none, slot) := by
    rw [f6, if_neg (by omega), lkR0 _ (nd' _ nroot), orLnk_none, hx]
  have c4r : chs s4 r = (chs s s.root).drop k := by rw [f7, if_pos rfl]
  have c4root : chs s4 s.root = (chs s s.root).take k := by rw [f7, if_neg (by omega), if_pos rfl]
  have hR := get_of_lnk l4r
  rw [c4r] at hR
  -- s5
  let s5 := s4.setIn r ⟨some s.root, 1, (chs s s.root).drop k⟩
  have l5 : ∀ y, lnk s5 y = if y = r then some (some s.root, 1) else lnk s4 y := by
    intro y; exact lnk_setIn s4 (by rw [l4r]; simp) _ y
  have c5 : ∀ y, chs s5 y = chs s4 y := by
    intro y
    simp only [s5]
    rw [chs_setIn s4 (by rw [l4r]; simp)]
    split
    · next e => subst e; exact c4r.symm
    · rfl
  have h5root : s5.inn.get s.root = some ⟨none, slot, (chs s s.root).take k⟩ := by
    have := get_of_lnk (s := s5) (x := s.root) (p := none) (i := slot) (by rw [l5, if_neg (by omega), l4root])
    rw [this, c5, c4root]
  let s6 := s5.setIn s.root ⟨none, 0, []⟩
  let s7 := allocIn s6 ⟨some s.root, 0, (chs s s.root).take k⟩
  have i6 : s6.inn.items.length = r + 1 := by simp only [s6, s5, items_setIn, f4]
  have hl5r : lnk s5 s.root ≠ none := by rw [l5, if_neg (by omega), l4root]; simp
  have l6 : ∀ y, lnk s6 y = if y = s.root then some (none, 0) else lnk s5 y := by
    intro y; exact lnk_setIn s5 hl5r _ y
  have c6 : ∀ y, chs s6 y = if y = s.root then [] else chs s5 y := by
    intro y; exact chs_setIn s5 hl5r _ y
  have l7 : ∀ y, lnk s7 y = if y = r + 1 then some (some s.root, 0) else lnk s6 y := by
    intro y; simp only [s7, lnk_alloc, i6]
  have c7 : ∀ y, chs s7 y = if y = r + 1 then (chs s s.root).take k else chs s6 y := by
    intro y; simp only [s7, chs_alloc, i6]
  have h7root : s7.inn.get s.root = some ⟨none, 0, []⟩ := by
    have := get_of_lnk (s := s7) (x := s.root) (p := none) (i := 0) (by
      rw [l7, if_neg (by omega), l6, if_pos rfl])
    rw [this, c7, if_neg (by omega), c6, if_pos rfl]
  let cs : List (Child C) := [⟨.internal (r + 1), c1⟩, ⟨.internal r, c2⟩]
  let s8 := s7.setIn s.root ⟨none, 0, cs⟩
  have hl7 : lnk s7 s.root ≠ none := by rw [lnk_of h7root]; simp
  have l8 : ∀ y, lnk s8 y = if y = s.root then some (none, 0) else lnk s7 y := by
    intro y; exact lnk_setIn s7 hl7 _ y
  have c8 : ∀ y, chs s8 y = if y = s.root then cs else chs s7 y := by
    intro y; exact chs_setIn s7 hl7 _ y
  -- all links and child lists of s8 in terms of s
  have L8 : ∀ y, lnk s8 y = if y = s.root then some (none, 0) else if y = r + 1 then some (some s.root, 0)
      else if y = r then some (some s.root, 1)
      else orLnk (look (reparentEntries ((chs s s.root).drop k) r 0) (.internal y)) (lnk s y) := by
    intro y
    rw [l8, l7, l6, l5, f6]
    by_cases h1 : y = s.root
    · simp [h1]
    · simp only [if_neg h1]
      by_cases h2 : y = r + 1
      · simp [h2]
      · simp only [if_neg h2]
        by_cases h3 : y = r
        · simp [h3]
        · simp only [if_neg h3]
  have C8 : ∀ y, chs s8 y = if y = s.root then cs else if y = r + 1 then (chs s s.root).take k
      else if y = r then (chs s s.root).drop k else chs s y := by
    intro y
    rw [c8, c7, c6, c5, f7]
    by_cases h1 : y = s.root
    · simp [h1]
    · simp only [if_neg h1]
  have hcalc := calcCache_ok (A := A) (N := (⟨none, 0, cs⟩ : Node C)) (Or.inl (by simp [cs])) (by
    intro c hc
    simp only [cs, List.mem_cons, List.not_mem_nil, or_false] at hc
    rcases hc with rfl | rfl
    · exact hokL
    · exact hokR) s4.rootCache
  obtain ⟨d, hcalc, -⟩ := hcalc
  obtain ⟨s9, r1, r2, r3, r4, r5, r6, r7, r8, r9⟩ := applyReparent_spec
    (reparentEntries ((chs s s.root).take k) (r + 1) 0) s8 (by
      intro e he
      obtain ⟨c, hc, hce⟩ := mem_entries he
      have hlv := kids_live w (List.mem_of_mem_take hc)
      rw [hce] at hlv
      cases ha : e.1 with
      | leaf l =>
        rw [ha] at hlv
        simp only [Live] at *
        show lpar s4 l ≠ none
        rw [f8]
        cases look (reparentEntries ((chs s s.root).drop k) r 0) (.leaf l) with
        | none => exact hlv
        | some v => simp
      | internal y =>
        rw [ha] at hlv
        simp only [Live] at *
        rw [L8]
        split
        · simp
        · split
          · simp
          · split
            · simp
            · cases look (reparentEntries ((chs s s.root).drop k) r 0) (.internal y) with
              | none => exact hlv
              | some v => simp)
  rw [← reparent_eq] at r1
  have hrun : splitRoot B s4 c1 ⟨.internal r, c2⟩ = .ok { s9 with rootCache := A.total (cs.map Child.cache) } := by
    rw [splitRoot_eq B s4 c1 c2 hR]
    simp only [f2, f4]
    have g5 : Tree.getIn (s4.setIn r ⟨some s.root, 1, (chs s s.root).drop k⟩) s.root =
        .ok ⟨none, slot, (chs s s.root).take k⟩ := getIn_ok h5root
    rw [g5, bind_ok]
    have g7 : Tree.getIn (allocIn ((s4.setIn r ⟨some s.root, 1, (chs s s.root).drop k⟩).setIn s.root ⟨none, 0, []⟩)
        ⟨some s.root, 0, (chs s s.root).take k⟩) s.root = .ok ⟨none, 0, []⟩ := getIn_ok h7root
    simp only [g7, bind_ok]
    have hcalc' : calcCache B ⟨none, 0, [⟨.internal (r + 1), c1⟩, ⟨.internal r, c2⟩]⟩ s4.rootCache none =
      .ok (A.total (cs.map Child.cache), d) := hcalc
    rw [hcalc', bind_ok]
    have r1' : reparent ((allocIn ((s4.setIn r ⟨some s.root, 1, (chs s s.root).drop k⟩).setIn s.root ⟨none, 0, []⟩)
        ⟨some s.root, 0, (chs s s.root).take k⟩).setIn s.root
          ⟨none, 0, [⟨.internal (r + 1), c1⟩, ⟨.internal r, c2⟩]⟩) ((chs s s.root).take k) (r + 1) 0 = .ok s9 := r1
    simp only [r1', bind_ok]
    rfl
  generalize hs' : ({ s9 with rootCache := A.total (cs.map Child.cache) } : Tree E C) = s' at *
  have L9 : ∀ y, lnk s' y = orLnk (look (reparentEntries ((chs s s.root).take k) (r + 1) 0) (.internal y))
      (lnk s8 y) := by intro y; rw [← r6, ← hs']; rfl
  have C9 : ∀ y, chs s' y = chs s8 y := by intro y; rw [← r7, ← hs']; rfl
  have P9 : ∀ l, lpar s' l = orPar (look (reparentEntries ((chs s s.root).take k) (r + 1) 0) (.leaf l))
      (orPar (look (reparentEntries ((chs s s.root).drop k) r 0) (.leaf l)) (lpar s l)) := by
    intro l
    have : lpar s' l = lpar s9 l := by rw [← hs']; rfl
    rw [this, r8]
    show orPar _ (lpar s4 l) = _
    rw [f8]
  have E9 : ∀ l, elm s' l = elm s l := by
    intro l
    have : elm s' l = elm s9 l := by rw [← hs']; rfl
    rw [this, r9]
    show elm s4 l = _
    rw [f9]
  have croot : chs s' s.root = cs := by rw [C9, C8, if_pos rfl]
  have cl : chs s' (r + 1) = (chs s s.root).take k := by rw [C9, C8, if_neg (by omega), if_pos rfl]
  have cr : chs s' r = (chs s s.root).drop k := by
    rw [C9, C8, if_neg (by omega), if_neg (by omega), if_pos rfl]
  have co : ∀ y, y ≠ s.root → y ≠ r → y ≠ r + 1 → chs s' y = chs s y := by
    intro y h1 h2 h3
    rw [C9, C8, if_neg h1, if_neg h3, if_neg h2]
  have kroot : kids s' s.root = [.internal (r + 1), .internal r] := by rw [kids_chs, croot]; rfl
  have kl : kids s' (r + 1) = (kids s s.root).take k := by rw [kids_chs, cl, hkL]
  have kr : kids s' r = (kids s s.root).drop k := by rw [kids_chs, cr, hkR]
  have lroot : lnk s' s.root = some (none, 0) := by
    rw [L9, lkL0 _ (nt' _ nroot), orLnk_none, L8, if_pos rfl]
  have ll : lnk s' (r + 1) = some (some s.root, 0) := by
    rw [L9, lkL0 _ (nt' _ nl), orLnk_none, L8, if_neg (by omega), if_pos rfl]
  have lr : lnk s' r = some (some s.root, 1) := by
    rw [L9, lkL0 _ (nt' _ nr), orLnk_none, L8, if_neg (by omega), if_neg (by omega), if_pos rfl]
  have kidne : ∀ (j : Nat) (y : Nat), Edge s s.root j (.internal y) → y ≠ s.root ∧ y ≠ r + 1 ∧ y ≠ r := by
    intro j y hj
    refine ⟨?_, ?_, ?_⟩
    · intro e; subst e; exact w.root_not_kid hj
    · intro e; subst e; exact nl (mem_kids.mpr ⟨j, hj⟩)
    · intro e; subst e; exact nr (mem_kids.mpr ⟨j, hj⟩)
  have lo : ∀ y, y ≠ s.root → y ≠ r → y ≠ r + 1 → Idx.internal y ∉ kids s s.root → lnk s' y = lnk s y := by
    intro y h1 h2 h3 h4
    rw [L9, lkL0 _ (nt' _ h4), orLnk_none, L8, if_neg h1, if_neg h3, if_neg h2, lkR0 _ (nd' _ h4), orLnk_none]
  have lkl : ∀ (j y : Nat), ((kids s s.root).take k)[j]? = some (.internal y) → lnk s' y = some (some (r + 1), j) := by
    intro j y hj
    rw [L9, lkL1 j _ hj]; rfl
  have takeE : ∀ (j : Nat) (a : Idx), ((kids s s.root).take k)[j]? = some a → Edge s s.root j a := by
    intro j a hj
    rw [List.getElem?_take] at hj
    split at hj
    · exact hj
    · cases hj
  have dropE : ∀ (j : Nat) (a : Idx), ((kids s s.root).drop k)[j]? = some a → Edge s s.root (k + j) a := by
    intro j a hj
    rw [List.getElem?_drop] at hj
    exact hj
  have nLR : ∀ (j : Nat) (a : Idx), ((kids s s.root).drop k)[j]? = some a → a ∉ (kids s s.root).take k := by
    intro j a hj hm
    exact disj a hm (List.mem_iff_getElem?.mpr ⟨j, hj⟩)
  have lkr : ∀ (j y : Nat), ((kids s s.root).drop k)[j]? = some (.internal y) → lnk s' y = some (some r, j) := by
    intro j y hj
    obtain ⟨h1, h2, h3⟩ := kidne _ y (dropE j _ hj)
    rw [L9, lkL0 _ (nLR j _ hj), orLnk_none, L8, if_neg h1, if_neg h2, if_neg h3, lkR1 j _ hj]; rfl
  have pkl : ∀ (j l : Nat), ((kids s s.root).take k)[j]? = some (.leaf l) → lpar s' l = some (r + 1) := by
    intro j l hj
    rw [P9, lkL1 j _ hj]; rfl
  have pkr : ∀ (j l : Nat), ((kids s s.root).drop k)[j]? = some (.leaf l) → lpar s' l = some r := by
    intro j l hj
    rw [P9, lkL0 _ (nLR j _ hj), orPar_none, lkR1 j _ hj]; rfl
  have po : ∀ l, Idx.leaf l ∉ kids s s.root → lpar s' l = lpar s l := by
    intro l hl
    rw [P9, lkL0 _ (nt' _ hl), lkR0 _ (nd' _ hl)]; rfl
  have ktroot : kids t s.root = [.internal (r + 1)] := lift.c_root
  have memsplit : ∀ a, a ∈ kids s s.root → (∃ j : Nat, ((kids s s.root).take k)[j]? = some a) ∨
      (∃ j : Nat, ((kids s s.root).drop k)[j]? = some a) := by
    intro a ha
    rw [← List.take_append_drop k (kids s s.root)] at ha
    rcases List.mem_append.mp ha with h | h
    · exact Or.inl (List.mem_iff_getElem?.mp h)
    · exact Or.inr (List.mem_iff_getElem?.mp h)
  have plive : ∀ l, lpar s' l = none ↔ lpar s l = none := by
    intro l
    by_cases hm : Idx.leaf l ∈ kids s s.root
    · obtain ⟨j0, hj0⟩ := mem_kids.mp hm
      rw [(w.klf hj0).2]
      rcases memsplit _ hm with ⟨j, hj⟩ | ⟨j, hj⟩
      · simp [pkl j l hj]
      · simp [pkr j l hj]
    · rw [po l hm]
  have rg : Regroup t s' s.root := by
    refine ⟨?_, ?_, ?_, ?_, ?_, ?_, ?_, ?_, ?_, ?_, ?_, ?_, ?_⟩
    · rw [lift.root, ← hs']
      show s9.root = _
      rw [r2]
      exact f2
    · rw [it, ← hs']
      show _ ≤ s9.inn.items.length
      rw [r4]
      simp [s8, s7, i6]
    · intro l; rw [E9, lift.elm]
    · intro l; rw [plive, lift.lpar_live]
    · rw [lroot, ot]
    · intro i a hi
      rw [Edge, kroot] at hi
      match i, hi with
      | 0, hi =>
        simp only [List.getElem?_cons_zero, Option.some.injEq] at hi
        subst hi
        exact ⟨r + 1, rfl, ll, Or.inr (by rw [ktroot]; simp)⟩
      | 1, hi =>
        simp only [List.getElem?_cons_succ, List.getElem?_cons_zero, Option.some.injEq] at hi
        subst hi
        refine ⟨r, rfl, lr, Or.inl ?_⟩
        rw [lift.lnk_in r (by omega) (by omega) nr, hrn]
      | i + 2, hi => simp at hi
    · intro y h1 h2
      rw [ktroot] at h1
      rw [kroot] at h2
      simp only [List.mem_singleton] at h1
      rw [h1] at h2
      simp at h2
    · intro g i y hg hi
      rw [kroot] at hg
      simp only [List.mem_cons, Idx.internal.injEq, List.not_mem_nil, or_false] at hg
      rcases hg with rfl | rfl
      · rw [Edge, kl] at hi; exact lkl i y hi
      · rw [Edge, kr] at hi; exact lkr i y hi
    · intro g i y hg hi
      rw [kroot] at hg
      simp only [List.mem_cons, Idx.internal.injEq, List.not_mem_nil, or_false] at hg
      rcases hg with rfl | rfl
      · rw [Edge, kl] at hi; exact pkl i y hi
      · rw [Edge, kr] at hi; exact pkr i y hi
    · intro y h1 h2 h3
      rw [kroot] at h2
      simp only [List.mem_cons, Idx.internal.injEq, List.not_mem_nil, or_false, not_or] at h2
      have h4 : Idx.internal y ∉ kids s s.root := by
        rw [← lift.kids_l]
        exact h3 (r + 1) (by rw [ktroot]; simp)
      by_cases h5 : y = s.root
      · subst h5; rw [lroot, ot]
      · rw [lo y h5 h2.2 h2.1 h4, lift.lnk_in y h5 h2.1 h4]
    · intro y h1 h2 h3
      rw [kroot] at h3
      simp only [List.mem_cons, Idx.internal.injEq, List.not_mem_nil, or_false, not_or] at h3
      rw [co y h1 h3.2 h3.1, lift.chs y h1 h3.1]
    · intro l h1
      have h4 : Idx.leaf l ∉ kids s s.root := by
        rw [← lift.kids_l]
        exact h1 (r + 1) (by rw [ktroot]; simp)
      rw [po l h4, lift.lpar_out l h4]
    · rw [grand, grand, croot, ct]
      simp only [cs, List.flatMap_cons, List.flatMap_nil, List.append_nil, chsI, cl, cr, lift.c_l,
        List.take_append_drop]
  refine ⟨s', t, f1, hrun, lift, ct, it, rg, ?_, ?_, croot, cl, cr, co, ?_, ?_⟩
  · rw [← hs']
    show s9.inn.items.length = _
    rw [r4]
    simp [s8, s7, i6]
  · rw [cch, croot, ← hs']
  · intro y h2 h3
    by_cases h1 : y = s.root
    · subst h1; rw [lroot, hx]; simp
    · by_cases hm : Idx.internal y ∈ kids s s.root
      · obtain ⟨j0, hj0⟩ := mem_kids.mp hm
        rw [(w.kin hj0).2]
        rcases memsplit _ hm with ⟨j, hj⟩ | ⟨j, hj⟩
        · simp [lkl j y hj]
        · simp [lkr j y hj]
      · rw [lo y h1 h2 h3 hm]
  · rw [← hs']
    show s9.lf.items.length = _
    rw [r5]
    exact f5

end
end GB

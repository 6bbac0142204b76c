import Verif.Proof.Climb

/-!
# The loops that rewrite parent links and slots
-/

namespace GB
variable {E C D : Type}
open Tree

/-- an index is stored -/
def Live (s : Tree E C) : Idx → Prop
  | .leaf l => lpar s l ≠ none
  | .internal y => lnk s y ≠ none

/-- the last entry for `a` in a list of re-parenting entries -/
def look : List (Idx × Nat × Nat) → Idx → Option (Nat × Nat)
  | [], _ => none
  | (b, v) :: rest, a =>
    match look rest a with
    | some w => some w
    | none => if b = a then some v else none

/-- overriding link data -/
def orLnk : Option (Nat × Nat) → Option (Option Nat × Nat) → Option (Option Nat × Nat)
  | some (p, i), _ => some (some p, i)
  | none, d => d

/-- overriding a parent -/
def orPar : Option (Nat × Nat) → Option Nat → Option Nat
  | some (p, _), _ => some p
  | none, d => d

@[simp] theorem orLnk_none (d : Option (Option Nat × Nat)) : orLnk none d = d := rfl
@[simp] theorem orLnk_some (v : Nat × Nat) (d : Option (Option Nat × Nat)) :
    orLnk (some v) d = some (some v.1, v.2) := rfl
@[simp] theorem orPar_none (d : Option Nat) : orPar none d = d := rfl
@[simp] theorem orPar_some (v : Nat × Nat) (d : Option Nat) : orPar (some v) d = some v.1 := rfl

theorem look_append (l r : List (Idx × Nat × Nat)) (a : Idx) : look (l ++ r) a = (look r a).or (look l a) := by
  induction l with
  | nil => cases h : look r a <;> simp [look, h]
  | cons e l ih =>
    simp only [List.cons_append, look, ih]
    cases h : look r a <;> simp

theorem look_none {l : List (Idx × Nat × Nat)} {a : Idx} (h : ∀ e ∈ l, e.1 ≠ a) : look l a = none := by
  induction l with
  | nil => rfl
  | cons e l ih =>
    simp only [look, ih (fun e he => h e (by simp [he])), if_neg (h e (by simp))]

theorem reparentEntries_fst (cs : List (Child C)) (p i : Nat) :
    (reparentEntries cs p i).map Prod.fst = cs.map Child.arena := by
  induction cs generalizing i with
  | nil => rfl
  | cons c cs ih => simp [reparentEntries, ih]

theorem look_entries_none {cs : List (Child C)} {p i : Nat} {a : Idx} (h : a ∉ cs.map Child.arena) :
    look (reparentEntries cs p i) a = none := by
  apply look_none
  intro e he hea
  apply h
  rw [← reparentEntries_fst cs p i, ← hea]
  exact List.mem_map_of_mem he

theorem look_entries_some : ∀ {cs : List (Child C)} {p i j : Nat} {c : Child C}
    (_ : (cs.map Child.arena).Nodup) (_ : cs[j]? = some c),
    look (reparentEntries cs p i) c.arena = some (p, i + j) := by
  intro cs
  induction cs with
  | nil => intro p i j c _ hj; simp at hj
  | cons a cs ih =>
    intro p i j c nd hj
    rw [List.map_cons, List.nodup_cons] at nd
    cases j with
    | zero =>
      simp only [List.getElem?_cons_zero, Option.some.injEq] at hj
      subst hj
      simp [reparentEntries, look, look_entries_none nd.1]
    | succ j =>
      have := ih (p := p) (i := i + 1) nd.2 (by simpa using hj)
      simp only [reparentEntries, look, this]
      rw [Option.some.injEq, Prod.mk.injEq]
      exact ⟨rfl, by omega⟩

/-- Effect of a list of re-parenting entries. -/
theorem applyReparent_spec : ∀ (rp : List (Idx × Nat × Nat)) (s : Tree E C),
    (∀ e ∈ rp, Live s e.1) →
    ∃ s', applyReparent s rp = .ok s' ∧ s'.root = s.root ∧ s'.rootCache = s.rootCache ∧
      s'.inn.items.length = s.inn.items.length ∧ s'.lf.items.length = s.lf.items.length ∧
      (∀ y, lnk s' y = orLnk (look rp (.internal y)) (lnk s y)) ∧
      (∀ y, chs s' y = chs s y) ∧
      (∀ l, lpar s' l = orPar (look rp (.leaf l)) (lpar s l)) ∧
      (∀ l, elm s' l = elm s l) := by
  intro rp
  induction rp with
  | nil => intro s _; exact ⟨s, rfl, rfl, rfl, rfl, rfl, fun _ => rfl, fun _ => rfl, fun _ => rfl, fun _ => rfl⟩
  | cons e rp ih =>
    intro s hl
    obtain ⟨a, p, i⟩ := e
    have ha : Live s a := hl (a, p, i) (by simp)
    cases a with
    | leaf l =>
      obtain ⟨L, hL⟩ := lpar_isSome.mp ha
      have hl1 : ∀ l' , lpar (s.setLf l { L with parent := p }) l' = if l' = l then some p else lpar s l' :=
        fun l' => lpar_setLf s ha _ l'
      obtain ⟨s', h1, h2, h3, h4, h5, h6, h7, h8, h9⟩ := ih (s.setLf l { L with parent := p }) (by
        intro e he
        have := hl e (by simp [he])
        cases hea : e.1 with
        | internal y => rw [hea] at this; exact this
        | leaf l' =>
          rw [hea] at this
          simp only [Live, hl1] at *
          split
          · simp
          · exact this)
      refine ⟨s', ?_, h2, h3, h4, by simpa using h5, ?_, h7, ?_, ?_⟩
      · simp only [applyReparent, getLf_ok hL, bind_ok, h1]
      · intro y
        rw [h6]
        simp only [look]
        cases look rp (.internal y) with
        | some v => rfl
        | none => rw [if_neg (by simp)]; rfl
      · intro l'
        rw [h8]
        simp only [look]
        cases look rp (.leaf l') with
        | some v => rfl
        | none =>
          rw [hl1]
          by_cases e : l' = l
          · subst e; simp
          · rw [if_neg e, if_neg (by simp; exact fun h => e h.symm)]
      · intro l'
        rw [h9, elm_setLf s ha]
        split
        · next e => subst e; rw [elm_of hL]
        · rfl
    | internal y0 =>
      obtain ⟨N, hN⟩ := lnk_isSome.mp ha
      have hl1 : ∀ y' , lnk (s.setIn y0 { N with parent := some p, slot := i }) y' =
          if y' = y0 then some (some p, i) else lnk s y' :=
        fun y' => lnk_setIn s ha _ y'
      obtain ⟨s', h1, h2, h3, h4, h5, h6, h7, h8, h9⟩ := ih (s.setIn y0 { N with parent := some p, slot := i }) (by
        intro e he
        have := hl e (by simp [he])
        cases hea : e.1 with
        | leaf y => rw [hea] at this; exact this
        | internal l' =>
          rw [hea] at this
          simp only [Live, hl1] at *
          split
          · simp
          · exact this)
      refine ⟨s', ?_, h2, h3, by simpa using h4, h5, ?_, ?_, ?_, h9⟩
      · simp only [applyReparent, getIn_ok hN, bind_ok, h1]
      · intro l'
        rw [h6]
        simp only [look]
        cases look rp (.internal l') with
        | some v => rfl
        | none =>
          rw [hl1]
          by_cases e : l' = y0
          · subst e; simp
          · rw [if_neg e, if_neg (by simp; exact fun h => e h.symm)]
      · intro y
        rw [h7, chs_setIn s ha]
        split
        · next e => subst e; rw [chs_of hN]
        · rfl
      · intro y
        rw [h8]
        simp only [look]
        cases look rp (.leaf y) with
        | some v => rfl
        | none => rw [if_neg (by simp)]; rfl

theorem reparent_eq : ∀ (cs : List (Child C)) (s : Tree E C) (r i : Nat),
    reparent s cs r i = applyReparent s (reparentEntries cs r i) := by
  intro cs
  induction cs with
  | nil => intro s r i; rfl
  | cons c cs ih =>
    intro s r i
    cases ha : c.arena with
    | leaf l => simp only [reparent, reparentEntries, ha, applyReparent, ih]
    | internal y => simp only [reparent, reparentEntries, ha, applyReparent, ih]

theorem mem_entries {cs : List (Child C)} {p i : Nat} {e : Idx × Nat × Nat} (h : e ∈ reparentEntries cs p i) :
    ∃ c ∈ cs, c.arena = e.1 := by
  have : e.1 ∈ (reparentEntries cs p i).map Prod.fst := List.mem_map_of_mem h
  rw [reparentEntries_fst] at this
  obtain ⟨c, hc, he⟩ := List.mem_map.mp this
  exact ⟨c, hc, he⟩

/-- The relation "same data except links of some nodes". -/
structure SameData (s s' : Tree E C) : Prop where
  root : s'.root = s.root
  rootCache : s'.rootCache = s.rootCache
  items : s'.inn.items.length = s.inn.items.length
  lfitems : s'.lf.items.length = s.lf.items.length
  chs : ∀ y, chs s' y = chs s y
  elm : ∀ l, elm s' l = elm s l

/-- `setSlots` renumbers the listed nodes. -/
theorem setSlots_spec : ∀ (cs : List (Child C)) (s : Tree E C) (i : Nat),
    (∀ c ∈ cs, ∃ y, c.arena = .internal y ∧ lnk s y ≠ none) → (cs.map Child.arena).Nodup →
    ∃ s', setSlots s cs i = .ok s' ∧ SameData s s' ∧ s'.lf = s.lf ∧
      (∀ y, Idx.internal y ∉ cs.map Child.arena → lnk s' y = lnk s y) ∧
      (∀ (j : Nat) (c : Child C) (y : Nat) (p : Option Nat) (k : Nat), cs[j]? = some c → c.arena = .internal y →
        lnk s y = some (p, k) → lnk s' y = some (p, i + j)) := by
  intro cs
  induction cs with
  | nil => intro s i _ _; exact ⟨s, rfl, ⟨rfl, rfl, rfl, rfl, fun _ => rfl, fun _ => rfl⟩, rfl, fun _ _ => rfl, by simp⟩
  | cons c cs ih =>
    intro s i hl nd
    obtain ⟨y0, hy0, hlive⟩ := hl c (by simp)
    obtain ⟨N, hN⟩ := lnk_isSome.mp hlive
    rw [List.map_cons, List.nodup_cons, hy0] at nd
    have hl1 : ∀ y' , lnk (s.setIn y0 { N with slot := i }) y' =
        if y' = y0 then some (N.parent, i) else lnk s y' :=
      fun y' => lnk_setIn s hlive _ y'
    obtain ⟨s', h1, h2, h3, h4, h5⟩ := ih (s.setIn y0 { N with slot := i }) (i + 1) (by
      intro c2 hc2
      obtain ⟨y, hy, hl2⟩ := hl c2 (by simp [hc2])
      refine ⟨y, hy, ?_⟩
      rw [hl1]
      split
      · simp
      · exact hl2) nd.2
    refine ⟨s', ?_, ⟨h2.root, h2.rootCache, by simpa using h2.items, h2.lfitems, ?_, h2.elm⟩, h3, ?_, ?_⟩
    · simp only [setSlots, hy0, Idx.unwrapInternal, bind_ok, getIn_ok hN, h1]
    · intro y
      rw [h2.chs, chs_setIn s hlive]
      split
      · next e => subst e; rw [chs_of hN]
      · rfl
    · intro y hy
      rw [List.map_cons, List.mem_cons, hy0] at hy
      rw [h4 y (fun h => hy (Or.inr h)), hl1, if_neg (fun e => hy (Or.inl (by rw [e])))]
    · intro j c2 y p k hj hc2 hlk
      cases j with
      | zero =>
        simp only [List.getElem?_cons_zero, Option.some.injEq] at hj
        subst hj
        rw [hy0] at hc2
        cases hc2
        rw [h4 _ nd.1, hl1, if_pos rfl]
        rw [lnk_of hN] at hlk
        cases hlk
        rfl
      | succ j =>
        have hj : cs[j]? = some c2 := by simpa using hj
        have hne : y ≠ y0 := by
          intro e
          apply nd.1
          rw [← e, ← hc2]
          exact List.mem_map_of_mem (List.mem_iff_getElem?.mpr ⟨j, hj⟩)
        rw [h5 j c2 y p k hj hc2 (by rw [hl1, if_neg hne]; exact hlk), Option.some.injEq, Prod.mk.injEq]
        exact ⟨rfl, by omega⟩

/-- `resetParents` redirects the parent links of the listed children. -/
theorem resetParents_spec : ∀ (cs : List (Child C)) (s : Tree E C) (p : Nat),
    (∀ c ∈ cs, Live s c.arena) →
    ∃ s', resetParents s cs p = .ok s' ∧ SameData s s' ∧
      (∀ y, Idx.internal y ∉ cs.map Child.arena → lnk s' y = lnk s y) ∧
      (∀ y q k, Idx.internal y ∈ cs.map Child.arena → lnk s y = some (q, k) → lnk s' y = some (some p, k)) ∧
      (∀ l, Idx.leaf l ∉ cs.map Child.arena → lpar s' l = lpar s l) ∧
      (∀ l, Idx.leaf l ∈ cs.map Child.arena → lpar s' l = some p) := by
  intro cs
  induction cs with
  | nil => intro s i _; exact ⟨s, rfl, ⟨rfl, rfl, rfl, rfl, fun _ => rfl, fun _ => rfl⟩, by simp, by simp, by simp, by simp⟩
  | cons c cs ih =>
    intro s p hl
    have hlive := hl c (by simp)
    cases ha : c.arena with
    | leaf l =>
      rw [ha] at hlive
      obtain ⟨L, hL⟩ := lpar_isSome.mp hlive
      have hl1 : ∀ l' , lpar (s.setLf l { L with parent := p }) l' = if l' = l then some p else lpar s l' :=
        fun l' => lpar_setLf s hlive _ l'
      obtain ⟨s', h1, h2, h3, h4, h5, h6⟩ := ih (s.setLf l { L with parent := p }) p (by
        intro c2 hc2
        have := hl c2 (by simp [hc2])
        cases hea : c2.arena with
        | internal y => rw [hea] at this; exact this
        | leaf l' =>
          rw [hea] at this
          simp only [Live, hl1] at *
          split
          · simp
          · exact this)
      refine ⟨s', ?_, ⟨h2.root, h2.rootCache, h2.items, by simpa using h2.lfitems, h2.chs, ?_⟩, ?_, ?_, ?_, ?_⟩
      · simp only [resetParents, ha, getLf_ok hL, bind_ok, h1]
      · intro l'
        rw [h2.elm, elm_setLf s hlive]
        split
        · next e => subst e; rw [elm_of hL]
        · rfl
      · intro y hy
        exact h3 y (by simp_all)
      · intro y q k hy hk
        exact h4 y q k (by simp_all) hk
      · intro l' hl'
        rw [List.map_cons, List.mem_cons, ha] at hl'
        rw [h5 l' (fun h => hl' (Or.inr h)), hl1, if_neg (fun e => hl' (Or.inl (by rw [e])))]
      · intro l' hl'
        by_cases hm : Idx.leaf l' ∈ cs.map Child.arena
        · exact h6 l' hm
        · rw [h5 l' hm, hl1, if_pos]
          rw [List.map_cons, List.mem_cons, ha] at hl'
          rcases hl' with h | h
          · cases h; rfl
          · exact absurd h hm
    | internal y0 =>
      rw [ha] at hlive
      obtain ⟨N, hN⟩ := lnk_isSome.mp hlive
      have hl1 : ∀ y' , lnk (s.setIn y0 { N with parent := some p }) y' =
          if y' = y0 then some (some p, N.slot) else lnk s y' :=
        fun y' => lnk_setIn s hlive _ y'
      obtain ⟨s', h1, h2, h3, h4, h5, h6⟩ := ih (s.setIn y0 { N with parent := some p }) p (by
        intro c2 hc2
        have := hl c2 (by simp [hc2])
        cases hea : c2.arena with
        | leaf y => rw [hea] at this; exact this
        | internal l' =>
          rw [hea] at this
          simp only [Live, hl1] at *
          split
          · simp
          · exact this)
      refine ⟨s', ?_, ⟨h2.root, h2.rootCache, by simpa using h2.items, h2.lfitems, ?_, h2.elm⟩, ?_, ?_, ?_, ?_⟩
      · simp only [resetParents, ha, getIn_ok hN, bind_ok, h1]
      · intro y
        rw [h2.chs, chs_setIn s hlive]
        split
        · next e => subst e; rw [chs_of hN]
        · rfl
      · intro y hy
        rw [List.map_cons, List.mem_cons, ha] at hy
        rw [h3 y (fun h => hy (Or.inr h)), hl1, if_neg (fun e => hy (Or.inl (by rw [e])))]
      · intro y q k hy hk
        by_cases hm : Idx.internal y ∈ cs.map Child.arena
        · by_cases e : y = y0
          · refine h4 y (some p) k hm ?_
            rw [hl1, if_pos e]
            rw [e, lnk_of hN] at hk
            cases hk
            rfl
          · exact h4 y q k hm (by rw [hl1, if_neg e]; exact hk)
        · rw [h3 y hm, hl1]
          rw [List.map_cons, List.mem_cons, ha] at hy
          rcases hy with h | h
          · cases h
            rw [if_pos rfl]
            rw [lnk_of hN] at hk
            cases hk
            rfl
          · exact absurd h hm
      · intro l hl'
        exact h5 l (by simp_all)
      · intro l hl'
        exact h6 l (by simp_all)


/-- `update_children_parent_slot_from` on a node with internal children -/
theorem updSlotsFrom_in {s : Tree E C} {p index : Nat} (hp : lnk s p ≠ none)
    (hk : ∀ a ∈ kids s p, ∃ y, a = .internal y ∧ lnk s y ≠ none) (nd : (kids s p).Nodup) :
    ∃ s', updSlotsFrom s p index = .ok s' ∧ SameData s s' ∧ s'.lf = s.lf ∧
      (∀ y, Idx.internal y ∉ (kids s p).drop index → lnk s' y = lnk s y) ∧
      (∀ (j y : Nat) (q : Option Nat) (k : Nat), index ≤ j → Edge s p j (.internal y) →
        lnk s y = some (q, k) → lnk s' y = some (q, j)) := by
  obtain ⟨N, hN⟩ := lnk_isSome.mp hp
  have hkN : kids s p = N.children.map Child.arena := kids_of hN
  simp only [updSlotsFrom, getIn_ok hN, bind_ok]
  by_cases hle : N.children.length ≤ index
  · rw [if_pos (Or.inl hle)]
    refine ⟨s, rfl, ⟨rfl, rfl, rfl, rfl, fun _ => rfl, fun _ => rfl⟩, rfl, fun _ _ => rfl, ?_⟩
    intro j y q k hj he
    have := (List.getElem?_eq_some_iff.mp he).1
    rw [hkN, List.length_map] at this
    omega
  · have hcl : N.isChildLeaf = false := by
      unfold Node.isChildLeaf
      split
      · next e => rw [e] at hle; simp at hle
      · next c cs e =>
        obtain ⟨y, hy, -⟩ := hk c.arena (by rw [hkN, e]; simp)
        rw [hy]; rfl
    rw [if_neg (by simp [hle, hcl])]
    have hkd : (N.children.drop index).map Child.arena = (kids s p).drop index := by
      rw [hkN, List.map_drop]
    obtain ⟨s', h1, h2, h3, h4, h5⟩ := setSlots_spec (N.children.drop index) s index (by
      intro c hc
      exact hk c.arena (by rw [hkN]; exact List.mem_map_of_mem (List.mem_of_mem_drop hc)))
      (by rw [hkd]; exact nd.sublist (List.drop_sublist _ _))
    rw [hkd] at h4
    refine ⟨s', h1, h2, h3, h4, ?_⟩
    intro j y q k hj he hl
    rw [Edge, hkN, List.getElem?_map, Option.map_eq_some_iff] at he
    obtain ⟨c, hc, hca⟩ := he
    have := h5 (j - index) c y q k (by rw [List.getElem?_drop]; rw [← hc]; congr 1; omega) hca hl
    rw [this, Option.some.injEq, Prod.mk.injEq]
    exact ⟨rfl, by omega⟩

/-- `update_children_parent_slot_from` on a node with leaf children -/
theorem updSlotsFrom_lf {s : Tree E C} {p index : Nat} (hp : lnk s p ≠ none)
    (hk : ∀ a ∈ kids s p, ∃ l, a = .leaf l) : updSlotsFrom s p index = .ok s := by
  obtain ⟨N, hN⟩ := lnk_isSome.mp hp
  have hkN : kids s p = N.children.map Child.arena := kids_of hN
  simp only [updSlotsFrom, getIn_ok hN, bind_ok]
  have hcl : N.isChildLeaf = true := by
    unfold Node.isChildLeaf
    split
    · rfl
    · next c cs e =>
      obtain ⟨y, hy⟩ := hk c.arena (by rw [hkN, e]; simp)
      rw [hy]; rfl
  rw [if_pos (Or.inr hcl)]
  rfl

end GB

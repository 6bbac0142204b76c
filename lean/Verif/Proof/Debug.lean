import Verif.Model.Debug
import Verif.Spec.Outline
import Verif.Proof.FilterMutSpec
import Verif.Proof.Dirty

/-!
# The `Debug` output
-/

namespace GB
variable {E C D : Type}
open Tree

/-- a line without its place in the arena -/
def DebugLine.plain : DebugLine C E → Option (OutlineLine C E)
  | .root .. => none
  | .node d i _ c => some (.sub d i c)
  | .leaf d e _ _ c => some (.elem d e c)

/-- the element that a line shows, with its index -/
def DebugLine.entry : DebugLine C E → Option (Nat × E)
  | .leaf _ e l _ _ => some (l, e)
  | _ => none

/-- the inner node that a line shows -/
def DebugLine.inner : DebugLine C E → Option Nat
  | .node _ _ x _ => some x
  | .root _ x _ => some x
  | .leaf .. => none

/-- the lines for the children `cs` -/
def linesOf (s : Tree E C) (below : Nat → List (DebugLine C E)) (d : Nat) (cs : List (Child C)) : List (DebugLine C E) :=
  cs.flatMap fun c => match c.arena with
    | .leaf l => ((s.lf.get l).map fun L => DebugLine.leaf d L.elem l L.parent c.cache).toList
    | .internal y => .node d (((s.inn.get y).map Node.slot).getD 0) y c.cache :: below y

/-- the lines below a node -/
def linesAt (s : Tree E C) : Nat → Nat → Nat → List (DebugLine C E)
  | 0, _, _ => []
  | n + 1, d, x => linesOf s (linesAt s n (d + 1)) d (chs s x)

section
variable {s : Tree E C} {lvl : Nat → Nat} {h : Nat}

theorem fmtNode_lines (w : WF s lvl h) : ∀ (n N d x : Nat), n + 1 ≤ N → AtLvl s lvl (n + 1) (.internal x) →
    fmtNode s N (.internal x) d = .ok (linesAt s (n + 1) d x) := by
  intro n
  induction n with
  | zero =>
    intro N d x hN hx
    obtain ⟨N, rfl⟩ : ∃ k, N = k + 1 := ⟨N - 1, by omega⟩
    obtain ⟨v, hv⟩ := Option.ne_none_iff_exists'.mp (show s.inn.get x ≠ none from fun h => hx.1 (by rw [lnk, h]; rfl))
    rw [fmtNode, getIn, hv]
    change fmtChildren s _ d v.children = _
    rw [linesAt, chs_of hv]
    have hk := hx.kid w
    rw [kids_of hv] at hk
    generalize v.children = cs at hk
    induction cs with
    | nil => rfl
    | cons c cs ih =>
      obtain ⟨l, hl, hp⟩ := AtLvl.zero w (hk c.arena (by simp))
      obtain ⟨L, hL⟩ := Option.ne_none_iff_exists'.mp (show s.lf.get l ≠ none from fun h => hp (by rw [lpar, h]; rfl))
      rw [fmtChildren, ih (fun a ha => hk a (by simp only [List.map_cons, List.mem_cons]; exact .inr ha))]
      simp [hl, Idx.isInternal, Idx.unwrapLeaf, getLf, hL, unwrap, linesOf, pure, Except.pure, bind, Except.bind]
  | succ n ihn =>
    intro N d x hN hx
    obtain ⟨N, rfl⟩ : ∃ k, N = k + 1 := ⟨N - 1, by omega⟩
    obtain ⟨v, hv⟩ := Option.ne_none_iff_exists'.mp (show s.inn.get x ≠ none from fun h => hx.1 (by rw [lnk, h]; rfl))
    rw [fmtNode, getIn, hv]
    change fmtChildren s _ d v.children = _
    rw [linesAt, chs_of hv]
    have hk := hx.kid w
    rw [kids_of hv] at hk
    generalize v.children = cs at hk
    induction cs with
    | nil => rfl
    | cons c cs ih =>
      have hc := hk c.arena (by simp)
      obtain ⟨y, hy, hp⟩ := AtLvl.succ hc
      obtain ⟨v, hv⟩ := Option.ne_none_iff_exists'.mp (show s.inn.get y ≠ none from fun h => hp (by rw [lnk, h]; rfl))
      rw [hy] at hc
      rw [fmtChildren, ih (fun a ha => hk a (by simp only [List.map_cons, List.mem_cons]; exact .inr ha)), hy, ihn N (d + 1) y (by omega) hc]
      simp [Idx.isInternal, getInIdx, Idx.unwrapInternal, getIn, hv, hy, Idx.raw, unwrap, linesOf, pure, Except.pure, bind, Except.bind]

theorem linesAt_entries : ∀ (n d x : Nat), (linesAt s n d x).filterMap DebugLine.entry = entriesOf s (leavesAt s n x) := by
  intro n
  induction n with
  | zero => intro d x; rfl
  | succ n ihn =>
    intro d x
    rw [linesAt, leavesAt, kids_chs]
    generalize chs s x = cs
    induction cs with
    | nil => rfl
    | cons c cs ih =>
      rw [List.map_cons, List.flatMap_cons, entriesOf_append, ← ih]
      simp only [linesOf, List.flatMap_cons, List.filterMap_append]
      congr 1
      cases hc : c.arena with
      | leaf l =>
        simp only [entriesOf, List.filterMap_cons, List.filterMap_nil, elm]
        cases s.lf.get l <;> simp [DebugLine.entry]
      | internal y =>
        simp only [List.filterMap_cons, DebugLine.entry]
        exact ihn (d + 1) y

theorem mem_linesOf {below : Nat → List (DebugLine C E)} {d : Nat} {cs : List (Child C)} {z : DebugLine C E} (hz : z ∈ linesOf s below d cs) :
    (∃ l L c, ⟨.leaf l, c⟩ ∈ cs ∧ s.lf.get l = some L ∧ z = .leaf d L.elem l L.parent c) ∨
    (∃ y c, ⟨.internal y, c⟩ ∈ cs ∧ (z = .node d (((s.inn.get y).map Node.slot).getD 0) y c ∨ z ∈ below y)) := by
  obtain ⟨⟨a, c⟩, hc, hz⟩ := List.mem_flatMap.mp hz
  cases a with
  | leaf l =>
    cases hL : s.lf.get l with
    | none => rw [show (Child.mk (Idx.leaf l) c).arena = .leaf l from rfl] at hz; simp [hL] at hz
    | some L =>
      rw [show (Child.mk (Idx.leaf l) c).arena = .leaf l from rfl] at hz
      simp only [hL, Option.map_some, Option.toList_some, List.mem_singleton] at hz
      exact .inl ⟨l, L, c, hc, hL, hz⟩
  | internal y => exact .inr ⟨y, c, hc, List.mem_cons.mp hz⟩

theorem linesAt_no_root : ∀ (n d x d' x' : Nat) (c : C), DebugLine.root d' x' c ∉ linesAt s n d x := by
  intro n
  induction n with
  | zero => intro d x d' x' c h; cases h
  | succ n ih =>
    intro d x d' x' c h
    rcases mem_linesOf h with ⟨l, L, c', -, -, h3⟩ | ⟨y, c', -, h3 | h3⟩
    · cases h3
    · cases h3
    · exact ih _ _ _ _ _ h3

/-- every leaf line shows a stored leaf, with its parent and the cache that is stored there -/
theorem linesAt_leaf (w : WF s lvl h) : ∀ (n d x : Nat) {d' l p : Nat} {e : E} {c : C}, AtLvl s lvl (n + 1) (.internal x) →
    DebugLine.leaf d' e l p c ∈ linesAt s (n + 1) d x → d' = d + n ∧ s.lf.get l = some ⟨e, p⟩ ∧ ⟨.leaf l, c⟩ ∈ chs s p := by
  intro n
  induction n with
  | zero =>
    intro d x d' l p e c hx hm
    rcases mem_linesOf hm with ⟨l', L, c', h1, h2, h3⟩ | ⟨y, c', h1, h3 | h3⟩
    · cases h3
      obtain ⟨i, hi⟩ := List.mem_iff_getElem?.mp h1
      obtain ⟨-, L', h4, h5⟩ := w.kid_lf x i l (edge_chs.mpr ⟨_, hi, rfl⟩)
      rw [h2] at h4
      cases h4
      exact ⟨rfl, h2, h5 ▸ h1⟩
    · cases h3
    · cases h3
  | succ n ih =>
    intro d x d' l p e c hx hm
    rcases mem_linesOf hm with ⟨l', L, c', h1, h2, h3⟩ | ⟨y, c', h1, h3 | h3⟩
    · have := hx.kid w (.leaf l') (by rw [kids_chs]; exact List.mem_map.mpr ⟨_, h1, rfl⟩)
      exact absurd this.1 (by omega)
    · cases h3
    · obtain ⟨k1, k2⟩ := ih (d + 1) y (hx.kid w (.internal y) (by rw [kids_chs]; exact List.mem_map.mpr ⟨_, h1, rfl⟩)) h3
      exact ⟨by omega, k2⟩

/-- every node line shows a stored node, with its place and the cache that is stored there -/
theorem linesAt_node (w : WF s lvl h) : ∀ (n d x : Nat) {d' i y : Nat} {c : C}, AtLvl s lvl (n + 1) (.internal x) →
    DebugLine.node d' i y c ∈ linesAt s (n + 1) d x → d' + lvl y = d + n ∧ ∃ p, lnk s y = some (some p, i) ∧ (chs s p)[i]? = some ⟨.internal y, c⟩ := by
  intro n
  induction n with
  | zero =>
    intro d x d' i y c hx hm
    rcases mem_linesOf hm with ⟨l', L, c', h1, h2, h3⟩ | ⟨y, c', h1, -⟩
    · cases h3
    · have := hx.kid w (.internal y) (by rw [kids_chs]; exact List.mem_map.mpr ⟨_, h1, rfl⟩)
      have := (w.lvl_pos' this.1).1
      have := (hx.kid w (.internal y) (by rw [kids_chs]; exact List.mem_map.mpr ⟨_, h1, rfl⟩)).2
      omega
  | succ n ih =>
    intro d x d' i y c hx hm
    rcases mem_linesOf hm with ⟨l', L, c', h1, h2, h3⟩ | ⟨y', c', h1, h3 | h3⟩
    · cases h3
    · cases h3
      have hl := (hx.kid w (.internal y) (by rw [kids_chs]; exact List.mem_map.mpr ⟨_, h1, rfl⟩)).2
      obtain ⟨j, hj⟩ := List.mem_iff_getElem?.mp h1
      obtain ⟨-, v, h4, h5, h6⟩ := w.kid_in x j y (edge_chs.mpr ⟨_, hj, rfl⟩)
      refine ⟨by omega, x, ?_, ?_⟩
      · simp [lnk, h4, h5]
      · simp only [h4, Option.map_some, Option.getD_some, h6]
        exact hj
    · obtain ⟨k1, k2⟩ := ih (d + 1) y' (hx.kid w (.internal y') (by rw [kids_chs]; exact List.mem_map.mpr ⟨_, h1, rfl⟩)) h3
      exact ⟨by omega, k2⟩

/-- the lines are the outline of the nested list -/
theorem linesAt_outline (w : WF s lvl h) : ∀ (n d x : Nat) (t : Shape C E (n + 1)), AtLvl s lvl (n + 1) (.internal x) → shapeOf s (n + 1) (.internal x) = some t →
    (linesAt s (n + 1) d x).filterMap DebugLine.plain = Shape.outline n d t := by
  intro n
  induction n with
  | zero =>
    intro d x (t : List (C × E)) hx ht
    rw [linesAt]
    change (chs s x).mapM (fun c => (shapeOf s 0 c.arena).map fun t => (c.cache, t)) = some t at ht
    change _ = List.map (fun (x : C × E) => OutlineLine.elem d x.2 x.1) t
    have hk := hx.kid w
    rw [kids_chs] at hk
    generalize chs s x = cs at hk ht
    induction cs generalizing t with
    | nil => cases ht; rfl
    | cons c cs ih =>
      obtain ⟨l, hl, hp⟩ := AtLvl.zero w (hk c.arena (by simp))
      obtain ⟨L, hL⟩ := Option.ne_none_iff_exists'.mp (show s.lf.get l ≠ none from fun h => hp (by rw [lpar, h]; rfl))
      have he : shapeOf s 0 c.arena = some (show Shape C E 0 from L.elem) := by
        rw [hl]
        exact (congrArg (Option.map LeafNode.elem) hL : elm s l = some L.elem)
      rw [List.mapM_cons, he] at ht
      cases h2 : (cs.mapM fun c => (shapeOf s 0 c.arena).map fun t => (c.cache, t)) with
      | none => rw [h2] at ht; simp at ht
      | some ts =>
        rw [h2] at ht
        cases ht
        have := ih ts (fun a ha => hk a (by simp only [List.map_cons, List.mem_cons]; exact .inr ha)) h2
        simp only [linesOf] at this ⊢
        rw [List.flatMap_cons, List.filterMap_append, this]
        simp [hl, hL, DebugLine.plain]
        rfl
  | succ n ihn =>
    intro d x (t : List (C × Shape C E (n + 1))) hx ht
    rw [linesAt]
    change (chs s x).mapM (fun c => (shapeOf s (n + 1) c.arena).map fun t => (c.cache, t)) = some t at ht
    change _ = List.flatMap (fun (x : (C × Shape C E (n + 1)) × Nat) => OutlineLine.sub d x.2 x.1.1 :: Shape.outline n (d + 1) x.1.2) (List.zipIdx t 0)
    have hk := hx.kid w
    rw [kids_chs] at hk
    have hs : ∀ i c, (chs s x)[i]? = some c → ∀ y v, c.arena = .internal y → s.inn.get y = some v → v.slot = 0 + i := by
      intro i c hc y v hy hv
      obtain ⟨-, v', h4, -, h6⟩ := w.kid_in x i y (edge_chs.mpr ⟨c, hc, hy⟩)
      rw [hv] at h4
      cases h4
      rw [h6, Nat.zero_add]
    generalize chs s x = cs at hk ht hs
    generalize 0 = k at hs
    induction cs generalizing t k with
    | nil => cases ht; rfl
    | cons c cs ih =>
      have hc := hk c.arena (by simp)
      obtain ⟨y, hy, hp⟩ := AtLvl.succ hc
      rw [hy] at hc
      cases h1 : shapeOf s (n + 1) c.arena with
      | none => rw [List.mapM_cons, h1] at ht; simp at ht
      | some u =>
        cases h2 : (cs.mapM fun c => (shapeOf s (n + 1) c.arena).map fun t => (c.cache, t)) with
        | none => rw [List.mapM_cons, h1, h2] at ht; simp at ht
        | some ts =>
          rw [List.mapM_cons, h1, h2] at ht
          cases ht
          have := ih ts (fun a ha => hk a (by simp only [List.map_cons, List.mem_cons]; exact .inr ha)) h2 (k + 1)
            (fun i c' hc' y' v' hy' hv' => by rw [hs (i + 1) c' hc' y' v' hy' hv']; omega)
          rw [hy] at h1
          rw [List.zipIdx_cons, List.flatMap_cons, ← this, ← ihn (d + 1) y u hc h1]
          simp only [linesOf]
          rw [List.flatMap_cons, List.filterMap_append, hy]
          simp only [List.filterMap_cons, DebugLine.plain]
          obtain ⟨v, hv⟩ := lnk_isSome.mp hp
          rw [hv, Option.map_some, Option.getD_some, hs 0 c rfl y v hy hv]
          rfl

theorem linesAt_inner (w : WF s lvl h) : ∀ (n d x : Nat), AtLvl s lvl n (.internal x) →
    ((linesAt s n d x).filterMap DebugLine.inner).Nodup ∧ ∀ y, y ∈ (linesAt s n d x).filterMap DebugLine.inner ↔ Below s (.internal x) (.internal y) ∧ y ≠ x := by
  intro n
  induction n with
  | zero =>
    intro d x hx
    have := (w.lvl_pos' hx.1).1
    have := hx.2
    omega
  | succ n ih =>
    intro d x hx
    rw [linesAt]
    have hk := hx.kid w
    rw [kids_chs] at hk
    have nd := w.kids_nodup x
    rw [kids_chs] at nd
    have he : ∀ c ∈ chs s x, ∃ i, Edge s x i c.arena := by
      intro c hc
      obtain ⟨i, hi⟩ := List.mem_iff_getElem?.mp hc
      exact ⟨i, edge_chs.mpr ⟨c, hi, rfl⟩⟩
    have key : ∀ cs : List (Child C), (∀ a ∈ cs.map Child.arena, AtLvl s lvl n a) → (cs.map Child.arena).Nodup →
        ((linesOf s (linesAt s n (d + 1)) d cs).filterMap DebugLine.inner).Nodup ∧
        ∀ y, y ∈ (linesOf s (linesAt s n (d + 1)) d cs).filterMap DebugLine.inner ↔ ∃ a ∈ cs.map Child.arena, Below s a (.internal y) := by
      intro cs
      induction cs with
      | nil => intro _ _; exact ⟨List.nodup_nil, fun y => by simp [linesOf]⟩
      | cons c cs ihc =>
        intro h1 h2
        rw [List.map_cons, List.nodup_cons] at h2
        obtain ⟨k1, k2⟩ := ihc (fun a ha => h1 a (by simp only [List.map_cons, List.mem_cons]; exact .inr ha)) h2.2
        have hc := h1 c.arena (by simp)
        have e : (linesOf s (linesAt s n (d + 1)) d (c :: cs)).filterMap DebugLine.inner =
            (linesOf s (linesAt s n (d + 1)) d [c]).filterMap DebugLine.inner ++ (linesOf s (linesAt s n (d + 1)) d cs).filterMap DebugLine.inner := by
          simp only [linesOf, List.flatMap_cons, List.flatMap_nil, List.append_nil, List.filterMap_append]
        have one : ((linesOf s (linesAt s n (d + 1)) d [c]).filterMap DebugLine.inner).Nodup ∧
            ∀ y, y ∈ (linesOf s (linesAt s n (d + 1)) d [c]).filterMap DebugLine.inner ↔ Below s c.arena (.internal y) := by
          cases ha : c.arena with
          | leaf l =>
            have e2 : (linesOf s (linesAt s n (d + 1)) d [c]).filterMap DebugLine.inner = [] := by
              simp only [linesOf, List.flatMap_cons, List.flatMap_nil, List.append_nil, ha]
              cases s.lf.get l <;> simp [DebugLine.inner]
            rw [e2]
            refine ⟨List.nodup_nil, fun y => ⟨fun h => by simp at h, fun hb => ?_⟩⟩
            rw [ha] at hc
            obtain ⟨k, k1, k2, -⟩ := hb.level w hc
            have := (w.lvl_pos' k2.1).1
            have := k2.2
            have := hc.1
            omega
          | internal z =>
            have e2 : (linesOf s (linesAt s n (d + 1)) d [c]).filterMap DebugLine.inner = z :: (linesAt s n (d + 1) z).filterMap DebugLine.inner := by
              simp only [linesOf, List.flatMap_cons, List.flatMap_nil, List.append_nil, ha, List.filterMap_cons, DebugLine.inner]
            rw [e2]
            rw [ha] at hc
            obtain ⟨m1, m2⟩ := ih (d + 1) z hc
            refine ⟨List.nodup_cons.mpr ⟨fun h => ((m2 z).mp h).2 rfl, m1⟩, fun y => ?_⟩
            rw [List.mem_cons, m2 y]
            constructor
            · rintro (rfl | ⟨h, -⟩)
              · exact .refl
              · exact h
            · intro h
              by_cases hy : y = z
              · exact .inl hy
              · exact .inr ⟨h, hy⟩
        rw [e]
        refine ⟨List.nodup_append.mpr ⟨one.1, k1, ?_⟩, ?_⟩
        · rintro y hy _ hy' rfl
          obtain ⟨a, ha, hb⟩ := (k2 y).mp hy'
          have := Below.inj w hc (h1 a (by simp only [List.map_cons, List.mem_cons]; exact .inr ha)) ((one.2 y).mp hy) hb
          exact h2.1 (this ▸ ha)
        · intro y
          rw [List.mem_append, one.2, k2, List.map_cons]
          simp
    obtain ⟨k1, k2⟩ := key (chs s x) hk nd
    refine ⟨k1, fun y => (k2 y).trans ⟨?_, ?_⟩⟩
    · rintro ⟨a, ha, hb⟩
      obtain ⟨c, hc, rfl⟩ := List.mem_map.mp ha
      obtain ⟨i, hi⟩ := he c hc
      refine ⟨hb.cons hi, ?_⟩
      rintro rfl
      obtain ⟨k, h1, h2, -⟩ := hb.level w (hk _ ha)
      have := h2.uniq hx
      omega
    · rintro ⟨hb, hne⟩
      have : ∀ b, Below s (.internal x) b → b = .internal x ∨ ∃ a ∈ (chs s x).map Child.arena, Below s a b := by
        intro b hb
        induction hb with
        | refl => exact .inl rfl
        | step _ he2 ih2 =>
          rcases ih2 with h1 | ⟨a, h1, h2⟩
          · cases h1
            exact .inr ⟨_, by rw [← kids_chs]; exact mem_kids.mpr ⟨_, he2⟩, .refl⟩
          · exact .inr ⟨a, h1, .step h2 he2⟩
      rcases this _ hb with h1 | h1
      · cases h1; exact absurd rfl hne
      · exact h1

theorem below_root (w : WF s lvl h) : ∀ (k y : Nat), lnk s y ≠ none → h - lvl y ≤ k → Below s (.internal s.root) (.internal y) := by
  intro k
  induction k with
  | zero =>
    intro y hy hk
    have : AtLvl s lvl h (.internal y) := ⟨hy, by have := (w.lvl_pos' hy).2; omega⟩
    rw [AtLvl.top w this]
    exact .refl
  | succ k ih =>
    intro y hy hk
    by_cases hr : y = s.root
    · rw [hr]; exact .refl
    · obtain ⟨N, hN⟩ := lnk_isSome.mp hy
      obtain ⟨p, i, he⟩ := w.par_in y N hN hr
      have hl := (w.kid_in p i y he).1
      have hp := edge_live he
      have := (w.lvl_pos' hp).2
      exact .step (ih p hp (by omega)) he

end
end GB

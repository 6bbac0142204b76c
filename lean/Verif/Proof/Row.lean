import Verif.Proof.SplitF

/-!
# Levels from top to bottom, and the neighbour functions
-/

namespace GB
variable {E C D : Type}
open Tree

/-- children of an index -/
def kidsI (s : Tree E C) : Idx → List Idx
  | .internal x => kids s x
  | .leaf _ => []

/-- the nodes at depth `d`, from left to right -/
def rowI (s : Tree E C) : Nat → List Idx
  | 0 => [.internal s.root]
  | d + 1 => (rowI s d).flatMap (kidsI s)

section
variable {s : Tree E C} {lvl : Nat → Nat} {h : Nat}

theorem rowI_internal (w : WF s lvl h) : ∀ d, d < h → ∀ a ∈ rowI s d, ∃ x, a = .internal x ∧ lnk s x ≠ none ∧
    lvl x = h - d := by
  intro d
  induction d with
  | zero =>
    intro hd a ha
    simp only [rowI, List.mem_singleton] at ha
    obtain ⟨i, hi⟩ := w.root'
    exact ⟨_, ha, by rw [hi]; simp, w.root_lvl⟩
  | succ d ih =>
    intro hd a ha
    simp only [rowI, List.mem_flatMap] at ha
    obtain ⟨b, hb, ha⟩ := ha
    obtain ⟨x, rfl, hx, hl⟩ := ih (by omega) b hb
    simp only [kidsI] at ha
    obtain ⟨i, hi⟩ := mem_kids.mp ha
    cases a with
    | leaf l => have := (w.klf hi).1; omega
    | internal y =>
      have := w.kin hi
      exact ⟨y, rfl, by rw [this.2]; simp, by omega⟩

theorem rowI_leaf (w : WF s lvl h) : ∀ a ∈ rowI s h, ∃ l, a = .leaf l ∧ lpar s l ≠ none := by
  intro a ha
  obtain ⟨d, rfl⟩ : ∃ d, h = d + 1 := ⟨h - 1, by have := w.h_pos; omega⟩
  simp only [rowI, List.mem_flatMap] at ha
  obtain ⟨b, hb, ha⟩ := ha
  obtain ⟨x, rfl, hx, hl⟩ := rowI_internal w d (by omega) b hb
  simp only [kidsI] at ha
  obtain ⟨i, hi⟩ := mem_kids.mp ha
  cases a with
  | leaf l => exact ⟨l, rfl, by rw [(w.klf hi).2]; simp⟩
  | internal y =>
    have := w.kin hi
    have := (w.lvl_pos' (p := y) (by rw [(w.kin hi).2]; simp)).1
    omega

theorem lv_step (w : WF s lvl h) (d : Nat) (hd : d < h) :
    (rowI s d).flatMap (sub s (h - d)) = (rowI s (d + 1)).flatMap (sub s (h - (d + 1))) := by
  have hin := rowI_internal w d hd
  have e : h - d = (h - (d + 1)) + 1 := by omega
  rw [rowI, List.flatMap_assoc, e]
  apply flatMap_congr'
  intro a ha
  obtain ⟨x, rfl, -, -⟩ := hin a ha
  show leavesAt s (h - (d + 1) + 1) x = _
  rw [leavesAt_succ]
  rfl

theorem lv_row (w : WF s lvl h) : ∀ d, d ≤ h → (rowI s d).flatMap (sub s (h - d)) = order s := by
  intro d
  induction d with
  | zero =>
    intro _
    rw [order_eq w]
    simp only [rowI, List.flatMap_cons, List.flatMap_nil, List.append_nil]
    rfl
  | succ d ih =>
    intro hd
    rw [← lv_step w d (by omega), ih (by omega)]

theorem row_order (w : WF s lvl h) : rowI s h = (order s).map .leaf := by
  rw [← lv_row w h (Nat.le_refl _)]
  have := rowI_leaf w
  generalize rowI s h = L at this
  induction L with
  | nil => rfl
  | cons a L ih =>
    obtain ⟨l, rfl, -⟩ := this a (by simp)
    rw [List.flatMap_cons, List.map_append, ← ih (fun b hb => this b (by simp [hb]))]
    rfl

theorem mem_row (w : WF s lvl h) : ∀ (n : Nat) {x : Nat}, lnk s x ≠ none → h - lvl x = n → .internal x ∈ rowI s n := by
  intro n
  induction n with
  | zero =>
    intro x hx hn
    have := w.lvl_pos' hx
    by_cases hr : x = s.root
    · subst hr; simp [rowI]
    · obtain ⟨p, i, he⟩ := w.par_in' hx hr
      have := w.kin he
      have := w.lvl_pos' (edge_live he)
      omega
  | succ n ih =>
    intro x hx hn
    have hr : x ≠ s.root := by
      intro e; subst e; rw [w.root_lvl] at hn; omega
    obtain ⟨p, i, he⟩ := w.par_in' hx hr
    have h1 := w.kin he
    simp only [rowI, List.mem_flatMap]
    exact ⟨_, ih (edge_live he) (by omega), mem_kids.mpr ⟨i, he⟩⟩

theorem get_split {α : Type} {l : List α} {i : Nat} {a : α} (hi : l[i]? = some a) :
    l = l.take i ++ a :: l.drop (i + 1) := (set_split hi a).1

theorem getLast_split {α : Type} {l : List α} {a : α} (hl : l.getLast? = some a) : ∃ l', l = l' ++ [a] := by
  obtain ⟨h1, h2⟩ := List.getLast?_eq_some_iff.mp hl
  exact ⟨h1, h2⟩

/-- the neighbours of a child, inside its parent's row -/
theorem row_child {d : Nat} {u v : List Idx} {p i : Nat} {a : Idx} (hr : rowI s d = u ++ .internal p :: v)
    (he : Edge s p i a) :
    rowI s (d + 1) = (u.flatMap (kidsI s) ++ (kids s p).take i) ++ a :: ((kids s p).drop (i + 1) ++ v.flatMap (kidsI s)) := by
  rw [rowI, hr, List.flatMap_append, List.flatMap_cons]
  show _ ++ (kids s p ++ _) = _
  conv => lhs; rw [get_split he]
  simp

/-- every node that is not the root has a child -/
def NE (s : Tree E C) : Prop := ∀ y, lnk s y ≠ none → y ≠ s.root → chs s y ≠ []

theorem Sz.ne {m : Fill} (sz : Sz m s h) (hm : 1 ≤ m.lo) : NE s := by
  intro y hy hr hn
  have := ((sz y hy (fun h => h)).2.1 hr).1
  rw [hn] at this
  simp at this
  omega

theorem row_live (w : WF s lvl h) {d : Nat} {u v : List Idx} {a : Idx} (hd : d < h) (hr : rowI s d = u ++ a :: v) :
    ∃ x, a = .internal x ∧ lnk s x ≠ none ∧ lvl x = h - d :=
  rowI_internal w d hd a (by rw [hr]; simp)

theorem row_not_root (w : WF s lvl h) {x : Nat} {d : Nat} (hx : lvl x = h - (d + 1)) (hd : d + 1 < h) : x ≠ s.root := by
  intro e
  subst e
  rw [w.root_lvl] at hx
  omega

theorem chs_head {x : Nat} : (chs s x).head?.map Child.arena = (kids s x).head? := by
  rw [kids_chs, List.head?_map]

theorem chs_last {x : Nat} : (chs s x).getLast?.map Child.arena = (kids s x).getLast? := by
  rw [kids_chs, List.getLast?_map]

/-- `next_same_level_in_node` finds the right neighbour. -/
theorem nextSameLevelIn_spec (w : WF s lvl h) (ne : NE s) : ∀ (n : Nat) (x : Nat), lnk s x ≠ none → h - lvl x < n →
    ∃ u v, rowI s (h - lvl x) = u ++ .internal x :: v ∧ nextSameLevelIn n s x = .ok v.head? := by
  intro n
  induction n with
  | zero => intro x _ hn; omega
  | succ n ih =>
    intro x hx hn
    obtain ⟨⟨par, slot⟩, hlk⟩ := Option.ne_none_iff_exists'.mp hx
    have hget := get_of_lnk hlk
    simp only [nextSameLevelIn, getIn_ok hget, bind_ok]
    cases par with
    | none =>
      have hxr : x = s.root := w.root_of_parent_none hget rfl
      subst hxr
      refine ⟨[], [], ?_, rfl⟩
      rw [w.root_lvl, Nat.sub_self]; rfl
    | some p =>
      obtain ⟨he, hxr⟩ := w.lnk_edge hlk
      have hlx := (w.kin he).1
      have hp := edge_live he
      have hxl := w.lvl_pos' hx
      have hpl := w.lvl_pos' hp
      obtain ⟨u, v, hr, hnx⟩ := ih p hp (by omega)
      have e : h - lvl x = (h - lvl p) + 1 := by omega
      refine ⟨_, _, by rw [e]; exact row_child hr he, ?_⟩
      obtain ⟨P, hP⟩ := lnk_isSome.mp hp
      simp only [getIn_ok hP, bind_ok, ← chs_of hP]
      cases hs : (chs s p)[slot + 1]? with
      | some c =>
        simp only [pure_ok]
        have hk : (kids s p)[slot + 1]? = some c.arena := by rw [kids_chs, List.getElem?_map, hs]; rfl
        have : ((kids s p).drop (slot + 1)).head? = some c.arena := by rw [List.head?_drop]; exact hk
        rw [List.head?_append, this]; rfl
      | none =>
        have hlen : (chs s p).length ≤ slot + 1 := by simpa using hs
        have hk : (kids s p).drop (slot + 1) = [] := by
          rw [List.drop_eq_nil_iff, kids_chs, List.length_map]; exact hlen
        rw [hk, List.nil_append]
        simp only [hnx, bind_ok]
        cases v with
        | nil => rfl
        | cons b v =>
          obtain ⟨y, rfl, hy, hly⟩ := row_live w (d := h - lvl p) (by omega) (u := u ++ [.internal p]) (v := v) (a := b) (by rw [hr]; simp)
          obtain ⟨Y, hY⟩ := lnk_isSome.mp hy
          simp only [List.head?_cons, getInIdx_ok hY, bind_ok, ← chs_of hY, pure_ok, chs_head]
          have hyr : y ≠ s.root := by
            intro e
            subst e
            rw [w.root_lvl] at hly
            have hz : h - lvl p = 0 := by omega
            rw [hz] at hr
            have := congrArg List.length hr
            simp only [rowI, List.length_append, List.length_cons, List.length_nil] at this
            omega
          have hne : kids s y ≠ [] := fun e => ne y hy hyr (kids_ne_nil.mp e)
          rw [List.flatMap_cons]
          show Except.ok _ = Except.ok ((kids s y) ++ _).head?
          cases hky : kids s y with
          | nil => exact absurd hky hne
          | cons z zs => rfl

/-- `prev_same_level_in_node` finds the left neighbour. -/
theorem prevSameLevelIn_spec (w : WF s lvl h) (ne : NE s) : ∀ (n : Nat) (x : Nat), lnk s x ≠ none → h - lvl x < n →
    ∃ u v, rowI s (h - lvl x) = u ++ .internal x :: v ∧ prevSameLevelIn n s x = .ok u.getLast? := by
  intro n
  induction n with
  | zero => intro x _ hn; omega
  | succ n ih =>
    intro x hx hn
    obtain ⟨⟨par, slot⟩, hlk⟩ := Option.ne_none_iff_exists'.mp hx
    have hget := get_of_lnk hlk
    simp only [prevSameLevelIn, getIn_ok hget, bind_ok]
    cases par with
    | none =>
      have hxr : x = s.root := w.root_of_parent_none hget rfl
      subst hxr
      refine ⟨[], [], ?_, rfl⟩
      rw [w.root_lvl, Nat.sub_self]; rfl
    | some p =>
      obtain ⟨he, hxr⟩ := w.lnk_edge hlk
      have hlx := (w.kin he).1
      have hp := edge_live he
      have hxl := w.lvl_pos' hx
      have hpl := w.lvl_pos' hp
      obtain ⟨u, v, hr, hnx⟩ := ih p hp (by omega)
      have e : h - lvl x = (h - lvl p) + 1 := by omega
      refine ⟨_, _, by rw [e]; exact row_child hr he, ?_⟩
      obtain ⟨P, hP⟩ := lnk_isSome.mp hp
      simp only [getIn_ok hP, bind_ok, ← chs_of hP]
      have hlt : slot < (kids s p).length := (List.getElem?_eq_some_iff.mp he).1
      by_cases hs : 0 < slot
      · rw [if_pos hs]
        obtain ⟨c, hc⟩ : ∃ c, (chs s p)[slot - 1]? = some c := by
          rw [kids_chs, List.length_map] at hlt
          exact ⟨_, List.getElem?_eq_getElem (by omega)⟩
        simp only [vget_ok hc, bind_ok, pure_ok]
        have hk : (kids s p)[slot - 1]? = some c.arena := by rw [kids_chs, List.getElem?_map, hc]; rfl
        have : ((kids s p).take slot).getLast? = some c.arena := by
          rw [List.getLast?_take, if_neg (by omega), hk]; rfl
        rw [List.getLast?_append, this]; rfl
      · rw [if_neg hs]
        have hz : slot = 0 := by omega
        subst hz
        simp only [List.take_zero, List.append_nil, hnx, bind_ok]
        cases hu : u.getLast? with
        | none =>
          have : u = [] := by simpa using hu
          subst this; rfl
        | some b =>
          obtain ⟨u', rfl⟩ : ∃ u', u = u' ++ [b] := getLast_split hu
          obtain ⟨y, rfl, hy, hly⟩ := row_live w (d := h - lvl p) (by omega) (u := u') (v := .internal p :: v) (a := b) (by rw [hr]; simp)
          obtain ⟨Y, hY⟩ := lnk_isSome.mp hy
          simp only [getInIdx_ok hY, bind_ok, ← chs_of hY, pure_ok, chs_last]
          have hyr : y ≠ s.root := by
            intro e
            subst e
            rw [w.root_lvl] at hly
            have hz : h - lvl p = 0 := by omega
            rw [hz] at hr
            have := congrArg List.length hr
            simp only [rowI, List.length_append, List.length_cons, List.length_nil] at this
            omega
          have hne : kids s y ≠ [] := fun e => ne y hy hyr (kids_ne_nil.mp e)
          rw [List.flatMap_append, List.flatMap_cons, List.flatMap_nil, List.append_nil]
          show Except.ok _ = Except.ok (_ ++ kids s y).getLast?
          rw [List.getLast?_append]
          cases hky : (kids s y).getLast? with
          | none => exact absurd (by simpa using hky) hne
          | some z => rfl

/-- position of a leaf in the sequence, through its parent -/
theorem leaf_row (w : WF s lvl h) {p i l : Nat} {u v : List Idx} (hr : rowI s (h - 1) = u ++ .internal p :: v)
    (he : Edge s p i (.leaf l)) :
    (order s).map Idx.leaf = (u.flatMap (kidsI s) ++ (kids s p).take i) ++
      .leaf l :: ((kids s p).drop (i + 1) ++ v.flatMap (kidsI s)) := by
  rw [← row_order w]
  have e : h = (h - 1) + 1 := by have := w.h_pos; omega
  rw [e]
  exact row_child hr he

theorem map_leaf_split {L : List Nat} {u v : List Idx} {l : Nat} (hm : L.map Idx.leaf = u ++ .leaf l :: v) :
    ∃ u' v', L = u' ++ l :: v' ∧ u = u'.map .leaf ∧ v = v'.map .leaf := by
  obtain ⟨u', w', rfl, h1, h2⟩ := List.map_eq_append_iff.mp hm
  obtain ⟨a, v', rfl, h3, h4⟩ := List.map_eq_cons_iff.mp h2
  cases h3
  exact ⟨u', v', rfl, h1.symm, h4.symm⟩

/-- `next_same_level_in_node` on a leaf. -/
theorem nextSameLevelLeaf_spec (w : WF s lvl h) (ne : NE s) {l : Nat} (hl : lpar s l ≠ none) :
    ∃ u v, order s = u ++ l :: v ∧ nextSameLevelLeaf s l = .ok (v.head?.map .leaf) := by
  obtain ⟨p, hlp⟩ := Option.ne_none_iff_exists'.mp hl
  obtain ⟨i, he⟩ := w.lpar_edge hlp
  have hl1 := (w.klf he).1
  have hp := edge_live he
  have hh := w.h_pos
  obtain ⟨e', hL, -⟩ := getLf_of hlp
  obtain ⟨P, hP⟩ := lnk_isSome.mp hp
  have hslot := getLeafSlot_wf w he
  obtain ⟨u, v, hr, hnx⟩ := nextSameLevelIn_spec w ne s.fuel p hp (fuel_ok w p)
  rw [hl1] at hr
  have ho := leaf_row w hr he
  obtain ⟨u', v', h1, h2, h3⟩ := map_leaf_split ho
  refine ⟨u', v', h1, ?_⟩
  have e3 : v'.head?.map Idx.leaf = (v'.map Idx.leaf).head? := by simp
  rw [e3, ← h3]
  simp only [nextSameLevelLeaf, getLf_ok hL, getIn_ok hP, bind_ok, ← chs_of hP, hslot]
  cases hs : (chs s p)[i + 1]? with
  | some c =>
    simp only [pure_ok]
    have hk : (kids s p)[i + 1]? = some c.arena := by rw [kids_chs, List.getElem?_map, hs]; rfl
    have : ((kids s p).drop (i + 1)).head? = some c.arena := by rw [List.head?_drop]; exact hk
    rw [List.head?_append, this]; rfl
  | none =>
    have hlen : (chs s p).length ≤ i + 1 := by simpa using hs
    have hk : (kids s p).drop (i + 1) = [] := by
      rw [List.drop_eq_nil_iff, kids_chs, List.length_map]; exact hlen
    rw [hk, List.nil_append]
    simp only [hnx, bind_ok]
    cases v with
    | nil => rfl
    | cons b v =>
      obtain ⟨y, rfl, hy, hly⟩ := row_live w (d := h - 1) (by omega) (u := u ++ [.internal p]) (v := v) (a := b) (by rw [hr]; simp)
      obtain ⟨Y, hY⟩ := lnk_isSome.mp hy
      have hyr : y ≠ s.root := by
        intro e
        subst e
        rw [w.root_lvl] at hly
        have hz : h - 1 = 0 := by omega
        rw [hz] at hr
        have := congrArg List.length hr
        simp only [rowI, List.length_append, List.length_cons, List.length_nil] at this
        omega
      have hne := ne y hy hyr
      simp only [List.head?_cons, getInIdx_ok hY, bind_ok, ← chs_of hY]
      cases hcy : chs s y with
      | nil => exact absurd hcy hne
      | cons c cs =>
        simp only [List.head?_cons, unwrap, bind_ok, pure_ok, List.flatMap_cons]
        have : kidsI s (.internal y) = c.arena :: cs.map Child.arena := by
          show kids s y = _
          rw [kids_chs, hcy]; rfl
        rw [this]; rfl

/-- `prev_same_level_in_node` on a leaf. -/
theorem prevSameLevelLeaf_spec (w : WF s lvl h) (ne : NE s) {l : Nat} (hl : lpar s l ≠ none) :
    ∃ u v, order s = u ++ l :: v ∧ prevSameLevelLeaf s l = .ok (u.getLast?.map .leaf) := by
  obtain ⟨p, hlp⟩ := Option.ne_none_iff_exists'.mp hl
  obtain ⟨i, he⟩ := w.lpar_edge hlp
  have hl1 := (w.klf he).1
  have hp := edge_live he
  have hh := w.h_pos
  obtain ⟨e', hL, -⟩ := getLf_of hlp
  obtain ⟨P, hP⟩ := lnk_isSome.mp hp
  have hslot := getLeafSlot_wf w he
  obtain ⟨u, v, hr, hnx⟩ := prevSameLevelIn_spec w ne s.fuel p hp (fuel_ok w p)
  rw [hl1] at hr
  have ho := leaf_row w hr he
  obtain ⟨u', v', h1, h2, h3⟩ := map_leaf_split ho
  refine ⟨u', v', h1, ?_⟩
  have e3 : u'.getLast?.map Idx.leaf = (u'.map Idx.leaf).getLast? := by simp
  rw [e3, ← h2]
  simp only [prevSameLevelLeaf, getLf_ok hL, getIn_ok hP, bind_ok, ← chs_of hP, hslot]
  have hlt : i < (kids s p).length := (List.getElem?_eq_some_iff.mp he).1
  by_cases hs : 0 < i
  · rw [if_pos hs]
    obtain ⟨c, hc⟩ : ∃ c, (chs s p)[i - 1]? = some c := by
      rw [kids_chs, List.length_map] at hlt
      exact ⟨_, List.getElem?_eq_getElem (by omega)⟩
    simp only [vget_ok hc, bind_ok, pure_ok]
    have hk : (kids s p)[i - 1]? = some c.arena := by rw [kids_chs, List.getElem?_map, hc]; rfl
    have : ((kids s p).take i).getLast? = some c.arena := by
      rw [List.getLast?_take, if_neg (by omega), hk]; rfl
    rw [List.getLast?_append, this]; rfl
  · rw [if_neg hs]
    have hz : i = 0 := by omega
    subst hz
    simp only [List.take_zero, List.append_nil, hnx, bind_ok]
    cases hu : u.getLast? with
    | none =>
      have : u = [] := by simpa using hu
      subst this; rfl
    | some b =>
      obtain ⟨u', rfl⟩ : ∃ u', u = u' ++ [b] := getLast_split hu
      obtain ⟨y, rfl, hy, hly⟩ := row_live w (d := h - 1) (by omega) (u := u') (v := .internal p :: v) (a := b) (by rw [hr]; simp)
      obtain ⟨Y, hY⟩ := lnk_isSome.mp hy
      have hyr : y ≠ s.root := by
        intro e
        subst e
        rw [w.root_lvl] at hly
        have hz : h - 1 = 0 := by omega
        rw [hz] at hr
        have := congrArg List.length hr
        simp only [rowI, List.length_append, List.length_cons, List.length_nil] at this
        omega
      have hne := ne y hy hyr
      simp only [getInIdx_ok hY, bind_ok, ← chs_of hY]
      rw [List.flatMap_append, List.flatMap_cons, List.flatMap_nil, List.append_nil]
      show _ = Except.ok (_ ++ kids s y).getLast?
      rw [List.getLast?_append, kids_chs, List.getLast?_map]
      cases hcy : (chs s y).getLast? with
      | none => exact absurd (by simpa using hcy) hne
      | some c => rfl

theorem nextElem_spec (w : WF s lvl h) (ne : NE s) {pos : Cursor} (hl : lpar s pos.leaf ≠ none) :
    ∃ u v, order s = u ++ pos.leaf :: v ∧ nextElem s pos = .ok (v.head?.map fun l => ⟨l, 0⟩) := by
  obtain ⟨u, v, h1, h2⟩ := nextSameLevelLeaf_spec w ne hl
  refine ⟨u, v, h1, ?_⟩
  simp only [nextElem, h2, bind_ok]
  cases v <;> rfl

theorem prevElem_spec (w : WF s lvl h) (ne : NE s) {pos : Cursor} (hl : lpar s pos.leaf ≠ none) :
    ∃ u v, order s = u ++ pos.leaf :: v ∧ prevElem s pos = .ok (u.getLast?.map fun l => ⟨l, 0⟩) := by
  obtain ⟨u, v, h1, h2⟩ := prevSameLevelLeaf_spec w ne hl
  refine ⟨u, v, h1, ?_⟩
  simp only [prevElem, h2, bind_ok]
  cases u.getLast? <;> rfl

/-- `last_leaf` -/
theorem lastLeafF_spec (w : WF s lvl h) (ne : NE s) : ∀ (n x : Nat), lnk s x ≠ none → lvl x ≤ n →
    lastLeafF n s x = .ok (leavesAt s (lvl x) x).getLast? ∧ (chs s x ≠ [] → leavesAt s (lvl x) x ≠ []) := by
  intro n
  induction n with
  | zero => intro x hx hn; have := (w.lvl_pos' hx).1; omega
  | succ n ih =>
    intro x hx hn
    obtain ⟨N, hN⟩ := lnk_isSome.mp hx
    have hlx := w.lvl_pos' hx
    obtain ⟨k, hk⟩ : ∃ k, lvl x = k + 1 := ⟨lvl x - 1, by omega⟩
    simp only [lastLeafF, getIn_ok hN, bind_ok, ← chs_of hN]
    rw [hk, leavesAt_succ]
    cases hl : (chs s x).getLast? with
    | none =>
      have hnil : chs s x = [] := by simpa using hl
      have : kids s x = [] := by rw [kids_chs, hnil]; rfl
      rw [this]
      exact ⟨rfl, fun h => absurd hnil h⟩
    | some c =>
      obtain ⟨cs, hcs⟩ : ∃ cs, chs s x = cs ++ [c] := getLast_split hl
      have hks : kids s x = cs.map Child.arena ++ [c.arena] := by rw [kids_chs, hcs]; simp
      have he : Edge s x cs.length c.arena := by rw [Edge, hks]; simp
      rw [hks, List.flatMap_append, List.flatMap_cons, List.flatMap_nil, List.append_nil]
      cases ha : c.arena with
      | leaf l =>
        refine ⟨?_, fun _ => by simp [sub]⟩
        simp only [ha]
        simp [sub]
      | internal y =>
        rw [ha] at he
        have h1 := w.kin he
        have hy : lnk s y ≠ none := by rw [h1.2]; simp
        have hyr : y ≠ s.root := by intro e; subst e; exact w.root_not_kid he
        have hly : lvl y = k := by omega
        obtain ⟨r1, r2⟩ := ih y hy (by omega)
        rw [hly] at r1 r2
        have hne := r2 (ne y hy hyr)
        have hsub : sub s k (.internal y) = leavesAt s k y := rfl
        rw [hsub]
        refine ⟨?_, fun _ => by simp [hne]⟩
        simp only [ha, r1]
        rw [List.getLast?_append]
        cases hg : (leavesAt s k y).getLast? with
        | none => exact absurd (by simpa using hg) hne
        | some z => rfl

theorem firstLeafF_spec (w : WF s lvl h) (ne : NE s) : ∀ (n x : Nat), lnk s x ≠ none → lvl x ≤ n →
    firstLeafF n s x = .ok (leavesAt s (lvl x) x).head? ∧ (chs s x ≠ [] → leavesAt s (lvl x) x ≠ []) := by
  intro n
  induction n with
  | zero => intro x hx hn; have := (w.lvl_pos' hx).1; omega
  | succ n ih =>
    intro x hx hn
    refine ⟨?_, (lastLeafF_spec w ne (n + 1) x hx hn).2⟩
    obtain ⟨N, hN⟩ := lnk_isSome.mp hx
    have hlx := w.lvl_pos' hx
    obtain ⟨k, hk⟩ : ∃ k, lvl x = k + 1 := ⟨lvl x - 1, by omega⟩
    simp only [firstLeafF, getIn_ok hN, bind_ok, ← chs_of hN]
    rw [hk, leavesAt_succ]
    cases hl : chs s x with
    | nil =>
      have : kids s x = [] := by rw [kids_chs, hl]; rfl
      rw [this]
      rfl
    | cons c cs =>
      have hks : kids s x = c.arena :: cs.map Child.arena := by rw [kids_chs, hl]; simp
      have he : Edge s x 0 c.arena := by rw [Edge, hks]; simp
      rw [hks, List.flatMap_cons]
      simp only [List.head?_cons]
      cases ha : c.arena with
      | leaf l =>
        simp only [ha]
        simp [sub]
      | internal y =>
        rw [ha] at he
        have h1 := w.kin he
        have hy : lnk s y ≠ none := by rw [h1.2]; simp
        have hyr : y ≠ s.root := by intro e; subst e; exact w.root_not_kid he
        have hly : lvl y = k := by omega
        obtain ⟨r1, r2⟩ := ih y hy (by omega)
        rw [hly] at r1 r2
        have hne := r2 (ne y hy hyr)
        have hsub : sub s k (.internal y) = leavesAt s k y := rfl
        rw [hsub]
        simp only [ha, r1]
        rw [List.head?_append]
        cases hg : (leavesAt s k y).head? with
        | none => exact absurd (by simpa using hg) hne
        | some z => rfl

theorem lastLeaf_spec (w : WF s lvl h) (ne : NE s) : lastLeaf s = .ok (order s).getLast? := by
  obtain ⟨i, hi⟩ := w.root'
  have := (lastLeafF_spec w ne s.fuel s.root (by rw [hi]; simp) (by rw [w.root_lvl, fuel]; have := w.h_le; omega)).1
  rw [lastLeaf, this, order_eq w, w.root_lvl]

theorem firstLeaf_spec (w : WF s lvl h) (ne : NE s) : firstLeaf s = .ok (order s).head? := by
  obtain ⟨i, hi⟩ := w.root'
  have := (firstLeafF_spec w ne s.fuel s.root (by rw [hi]; simp) (by rw [w.root_lvl, fuel]; have := w.h_le; omega)).1
  rw [firstLeaf, this, order_eq w, w.root_lvl]

theorem isEmpty_spec (w : WF s lvl h) (ne : NE s) : isEmpty s = .ok (order s).isEmpty := by
  obtain ⟨i, hi⟩ := w.root'
  have hr : lnk s s.root ≠ none := by rw [hi]; simp
  have := (lastLeafF_spec w ne s.fuel s.root hr (by rw [w.root_lvl, fuel]; have := w.h_le; omega)).2
  rw [w.root_lvl, ← order_eq w] at this
  simp only [isEmpty, getIn_ok (get_of_lnk hi), bind_ok, pure_ok, Node.isEmpty]
  cases hc : chs s s.root with
  | nil =>
    have hk : kids s s.root = [] := kids_ne_nil.mpr hc
    have : order s = [] := by
      cases ho : order s with
      | nil => rfl
      | cons l L =>
        have hm : l ∈ order s := by rw [ho]; simp
        exact absurd ((empty_root w hk).2 l) ((mem_order w).mp hm)
    rw [this]; rfl
  | cons c cs =>
    have h1 := this (by rw [hc]; simp)
    cases ho : order s with
    | nil => exact absurd ho h1
    | cons l L => rfl

end
end GB

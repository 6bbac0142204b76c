import Verif.Proof.LackPath
import Verif.Proof.Rounds

/-!
# How often `handle_lack_on_path_to_leaf` walks down to its leaf

A level of the path is settled when its node has six children, or when every node above it has only one.  A walk keeps the settled levels
at the bottom as they are, and gives the node of the lowest level that is not settled at least one more child or settles it.
-/

namespace GB
variable {E C D : Type}
open Tree

section
variable {B : Trait E C D} {A : Law B} {s s' : Tree E C} {lvl : Nat → Nat} {h l : Nat}

/-- every node above leaf `l` and above level `k` has one child -/
def Chain (s : Tree E C) (lvl : Nat → Nat) (l k : Nat) : Prop :=
  ∀ y, LeafUp s l y → k < lvl y → (chs s y).length = 1

/-- the levels up to `j` are settled -/
def Settled (s : Tree E C) (lvl : Nat → Nat) (l j : Nat) : Prop :=
  ∀ y, LeafUp s l y → lvl y ≤ j → 6 ≤ (chs s y).length ∨ Chain s lvl l (lvl y)

/-- the node of level `k` above `l` has at least `c` children -/
def Has (s : Tree E C) (lvl : Nat → Nat) (l k c : Nat) : Prop :=
  ∀ y, LeafUp s l y → lvl y = k → c ≤ (chs s y).length

/-- a level-`k + 1` node above `l` has two children, or the path above level `k` is a chain -/
def Fork (s : Tree E C) (lvl : Nat → Nat) (l k : Nat) : Prop :=
  ∀ y, LeafUp s l y → lvl y = k + 1 → 2 ≤ (chs s y).length ∨ Chain s lvl l k

theorem LeafUp.ne {y : Nat} (hy : LeafUp s l y) : 1 ≤ (chs s y).length := by
  have key : ∀ {i : Nat} {a : Idx}, Edge s y i a → 1 ≤ (chs s y).length := by
    intro i a e
    have := (List.getElem?_eq_some_iff.mp e).1
    rw [kids_chs, List.length_map] at this
    omega
  cases hy with
  | leaf e => exact key e
  | up _ e => exact key e

/-- the parent of a node above `l` -/
theorem LeafUp.parent (w : WF s lvl h) {x : Nat} (hx : LeafUp s l x) (hr : x ≠ s.root) :
    ∃ p i, Edge s p i (.internal x) ∧ LeafUp s l p ∧ lvl p = lvl x + 1 := by
  obtain ⟨p, i, he⟩ := w.par_in' hx.live hr
  exact ⟨p, i, he, .up hx he, (w.kin he).1⟩

/-- there is a node above `l` at every level -/
theorem LeafUp.level (w : WF s lvl h) {x : Nat} (hx : LeafUp s l x) (j : Nat) (h1 : 1 ≤ j) (h2 : j ≤ h) : ∃ y, LeafUp s l y ∧ lvl y = j := by
  have down : ∀ {x : Nat}, LeafUp s l x → j ≤ lvl x → ∃ y, LeafUp s l y ∧ lvl y = j := by
    intro x hx
    induction hx with
    | leaf e => intro hj; have := (w.klf e).1; exact ⟨_, .leaf e, by omega⟩
    | @up q p i hq e ih =>
      intro hj
      by_cases hjp : lvl p = j
      · exact ⟨p, .up hq e, hjp⟩
      · exact ih (by have := (w.kin e).1; omega)
  have up : ∀ (n : Nat) {x : Nat}, LeafUp s l x → h ≤ lvl x + n → ∃ y, LeafUp s l y ∧ lvl y = j := by
    intro n
    induction n with
    | zero => intro x hx hn; exact down hx (by omega)
    | succ n ih =>
      intro x hx hn
      by_cases hr : x = s.root
      · refine down hx ?_
        rw [hr, w.root_lvl]; exact h2
      · obtain ⟨p, i, -, hp, hl⟩ := hx.parent w hr
        exact ih hp (by omega)
  exact up h hx (by omega)

/-- What one call of `handle_lack_single_layer` does to the nodes above `l`: nothing, when the node is the only child of its parent;
otherwise it keeps the levels other than its own and the one above, its own node gets more children, and no node above it is a
chain. -/
theorem lackStep_up {x : Nat} {r : Option Nat} (g : Good A s lvl h) (th : Thin s) (hr : x ≠ s.root) (hxl : LeafUp s l x)
    (e1 : handleLackSingle B s x = .ok (r, s')) :
    (s' = s ∧ Has s lvl l (lvl x + 1) 1 ∧ ¬ Has s lvl l (lvl x + 1) 2) ∨
    (Has s lvl l (lvl x + 1) 2 ∧ (∀ y, LeafUp s l y → lvl y ≠ lvl x → LeafUp s' l y) ∧
      (∀ y, LeafUp s' l y → lvl y ≠ lvl x → lvl y ≠ lvl x + 1 → LeafUp s l y ∧ chs s' y = chs s y) ∧
      ∀ y, LeafUp s' l y → lvl y = lvl x → 6 ≤ (chs s' y).length ∨ (chs s x).length + 1 ≤ (chs s' y).length) := by
  have w := g.wf
  obtain ⟨p, i, he, hpl, hlp⟩ := hxl.parent w hr
  have hx := hxl.live
  obtain ⟨r', s2, e1', e2⟩ := lackSingle_spec g.toX (fun _ _ hf => hf) (w.kin he).2
    (fun y hy => (th y (kids_live_in w hy)).1)
    (fun y hy => Or.inl ((th y (kids_live_in w hy)).2 (by
      rintro rfl; obtain ⟨i, hi⟩ := mem_kids.mp hy; exact w.root_not_kid hi)))
  rw [e1] at e1'
  cases e1'
  cases e2 with
  | empty le hx0 d => exact absurd hx0 ((th x hx).2 hr)
  | alone hx0 hp =>
    refine Or.inl ⟨rfl, fun y hy _ => hy.ne, fun h2 => ?_⟩
    have := h2 p hpl hlp
    omega
  | @pair _ a b hx0 hab ha hb hne d =>
    obtain ⟨ia, hia⟩ := mem_kids.mp ha
    obtain ⟨ib, hib⟩ := mem_kids.mp hb
    have w' := d.good.wf
    have la := (w.kin hia).1
    have lb := (w.kin hib).1
    have sa := kids_live_in w ha
    have sb := kids_live_in w hb
    have na : chs s a ≠ [] := (th a sa).2 (by rintro rfl; exact w.root_not_kid hia)
    have nb : chs s b ≠ [] := (th b sb).2 (by rintro rfl; exact w.root_not_kid hib)
    have na := List.length_pos_iff.mpr na
    have nb := List.length_pos_iff.mpr nb
    have keep : ∀ y, LeafUp s l y → lvl y ≠ lvl x → LeafUp s' l y := fun y hy hl =>
      (d.up w hy).1 (by rintro rfl; omega) (by rintro rfl; omega)
    refine Or.inr ⟨fun y hy hl => ?_, keep, fun y hy hl hl2 => ?_, fun y hy hl => ?_⟩
    · cases hpl.uniq w hy (by omega)
      have l1 := (List.getElem?_eq_some_iff.mp hia).1
      have l2 := (List.getElem?_eq_some_iff.mp hib).1
      rw [kids_chs, List.length_map] at l1 l2
      have : ia ≠ ib := by
        intro e
        have e1 : (kids s p)[ia]? = some (.internal a) := hia
        have e2 : (kids s p)[ib]? = some (.internal b) := hib
        rw [e, e2] at e1
        cases e1
        exact hne rfl
      omega
    · -- a node above `l` in the new tree is the old one of its level
      have hy1 := w'.lvl_pos' hy.live
      obtain ⟨z, hz, hzl⟩ := hxl.level w (lvl y) hy1.1 hy1.2
      cases hy.uniq w' (keep z hz (by omega)) hzl
      exact ⟨hz, d.frame y (by rintro rfl; omega) (by rintro rfl; omega) (by rintro rfl; omega)⟩
    · obtain ⟨x', h1, h2, h3⟩ := (d.up w hxl).2 hab
      have : y = x' := h3.uniq w' hy (by rcases h1 with rfl | rfl <;> omega)
      subst this
      rcases (d.pair y hy.live h1).2 with h6 | hsum
      · exact Or.inl h6
      · right; rcases hab with rfl | rfl <;> omega

/-- One walk.  `k` is the level that comes next. -/
theorem lackOnPath_up (j c : Nat) (hc : c ≤ 5) : ∀ (path : List PIdx) (k : Nat) (s : Tree E C) (q q' : Nat) (s' : Tree E C),
    Good A s lvl h → Thin s → Stair s lvl l k path → Settled s lvl l j → Fork s lvl l k → Has s lvl l (j + 1) c →
    (k ≤ j → Settled s lvl l (j + 1) ∨ Has s lvl l (j + 1) (c + 1)) → lackOnPath B s path q = .ok (q', s') →
    Settled s' lvl l j ∧ (Settled s' lvl l (j + 1) ∨ Has s' lvl l (j + 1) (c + 1)) := by
  intro path
  induction path with
  | nil =>
    intro k s q q' s' g th st se fo ha hk e
    cases st
    cases e
    exact ⟨se, hk (Nat.zero_le _)⟩
  | cons i rest ih =>
    intro k s q q' s' g th st se fo ha hk e
    cases st with
    | @cons x i k _ hx hl hr st =>
      have w := g.wf
      obtain ⟨N, hN⟩ := lnk_isSome.mp hx.live
      by_cases hlk : (chs s x).length < 6
      · have hlk' : N.isLack = true := by rw [Node.isLack, ← chs_of hN]; exact decide_eq_true hlk
        obtain ⟨r, s1, e1, g1, th1, sm1, -⟩ := lackStep g th hx.live hr hlk
        simp only [lackOnPath, Idx.unwrapInternal, bind_ok, getIn_ok hN, hlk', if_true, e1] at e
        rcases lackStep_up (l := l) g th hr hx e1 with ⟨rfl, h1, h2⟩ | ⟨h1, h2, h3, h4⟩
        · -- the only child
          have hch : Chain s1 lvl l (k + 1) := by
            obtain ⟨p, ip, -, hp, hlp⟩ := hx.parent w hr
            rcases fo p hp (by omega) with h3 | h3
            · refine absurd (fun y hy hly => ?_) h2
              cases hp.uniq w hy (by omega)
              exact h3
            · exact h3
          refine ih k s1 _ q' s' g1 th1 st se (fun y hy hly => ?_) ha (fun hkj => ?_) e
          · cases hx.uniq w hy (by omega)
            rcases Nat.lt_or_ge (chs s1 x).length 2 with h4 | h4
            · refine Or.inr fun z hz hzl => ?_
              by_cases hzx : lvl z = lvl x
              · cases hx.uniq w hz hzx
                have := hz.ne
                omega
              · exact hch z hz (by omega)
            · exact Or.inl h4
          · rcases Nat.lt_or_ge j (k + 1) with h4 | h4
            · refine Or.inl fun y hy hly => ?_
              by_cases hyj : lvl y ≤ j
              · exact se y hy hyj
              · exact Or.inr (by rw [show lvl y = k + 1 by omega]; exact hch)
            · exact hk h4
        · -- rebalanced
          have w1 := g1.wf
          have hkj : j ≤ k := by
            -- a settled level is not rebalanced
            rcases Nat.lt_or_ge k j with h5 | h5
            · exfalso
              rcases se x hx (by omega) with h6 | h6
              · omega
              · obtain ⟨p, ip, -, hp, hlp⟩ := hx.parent w hr
                have := h6 p hp (by omega)
                have := h1 p hp (by omega)
                omega
            · exact h5
          have hfull : ∀ y, LeafUp s l y → lvl y ≤ j → 6 ≤ (chs s y).length := by
            intro y hy hly
            rcases se y hy hly with h5 | h5
            · exact h5
            · obtain ⟨p, ip, -, hp, hlp⟩ := hx.parent w hr
              have := h5 p hp (by omega)
              have := h1 p hp (by omega)
              omega
          have se1 : Settled s1 lvl l j := by
            intro y hy hly
            obtain ⟨h5, h6⟩ := h3 y hy (by omega) (by omega)
            rw [h6]; exact Or.inl (hfull y h5 hly)
          have fo1 : Fork s1 lvl l k := by
            intro y hy hly
            have := hx.ne
            rcases h4 y hy (by omega) with h5 | h5 <;> exact Or.inl (by omega)
          have ha1 : Has s1 lvl l (j + 1) c := by
            intro y hy hly
            by_cases hyx : lvl y = lvl x
            · have := ha x hx (by omega)
              rcases h4 y hy hyx with h5 | h5 <;> omega
            · obtain ⟨h5, h6⟩ := h3 y hy (by omega) (by omega)
              rw [h6]; exact ha y h5 hly
          refine ih k s1 _ q' s' g1 th1 (st.keep (Nat.le_refl _) sm1.root (fun y hy hly => h2 y hy (by omega))) se1 fo1 ha1 (fun hkj' => ?_) e
          refine Or.inr fun y hy hly => ?_
          have := ha x hx (by omega)
          rcases h4 y hy (by omega) with h5 | h5 <;> omega
      · have hlk' : N.isLack = false := by rw [Node.isLack, ← chs_of hN]; exact decide_eq_false hlk
        simp only [lackOnPath, Idx.unwrapInternal, bind_ok, getIn_ok hN, hlk'] at e
        refine ih k s _ q' s' g th st se (fun y hy hly => ?_) ha (fun hkj => ?_) e
        · cases hx.uniq w hy (by omega)
          exact Or.inl (by omega)
        · rcases Nat.lt_or_ge j (k + 1) with h4 | h4
          · refine Or.inr fun y hy hly => ?_
            cases hx.uniq w hy (by omega)
            omega
          · exact hk h4

/-- When all levels are settled, a walk changes nothing. -/
theorem lackOnPath_settled : ∀ (path : List PIdx) (k : Nat) (q q' : Nat) (s' : Tree E C), Good A s lvl h → Thin s → Stair s lvl l k path →
    Settled s lvl l k → lackOnPath B s path q = .ok (q', s') → s' = s := by
  intro path
  induction path with
  | nil => intro k q q' s' _ _ _ _ e; cases e; rfl
  | cons i rest ih =>
    intro k q q' s' g th st se e
    cases st with
    | @cons x i k _ hx hl hr st =>
      have w := g.wf
      obtain ⟨N, hN⟩ := lnk_isSome.mp hx.live
      by_cases hlk : (chs s x).length < 6
      · have hlk' : N.isLack = true := by rw [Node.isLack, ← chs_of hN]; exact decide_eq_true hlk
        obtain ⟨r, s1, e1, -⟩ := lackStep g th hx.live hr hlk
        simp only [lackOnPath, Idx.unwrapInternal, bind_ok, getIn_ok hN, hlk', if_true, e1] at e
        rcases lackStep_up (l := l) g th hr hx e1 with ⟨rfl, h1, h2⟩ | ⟨h1, -⟩
        · exact ih k _ q' s' g th st (fun y hy hly => se y hy (by omega)) e
        · obtain ⟨p, ip, -, hp, hlp⟩ := hx.parent w hr
          have h5 := h1 p hp (by omega)
          rcases se x hx (by omega) with h6 | h6
          · omega
          · have := h6 p hp (by omega)
            omega
      · have hlk' : N.isLack = false := by rw [Node.isLack, ← chs_of hN]; exact decide_eq_false hlk
        simp only [lackOnPath, Idx.unwrapInternal, bind_ok, getIn_ok hN, hlk'] at e
        exact ih k _ q' s' g th st (fun y hy hly => se y hy (by omega)) e

/-- what is left to do fits into `n` walks -/
def Room (s : Tree E C) (lvl : Nat → Nat) (h l n : Nat) : Prop :=
  ∃ j c, c ≤ 5 ∧ Settled s lvl l j ∧ Has s lvl l (j + 1) c ∧ ((j + 1 = h ∧ 2 ≤ n) ∨ (j + 1 < h ∧ 5 * (h - 1 - j) + 3 ≤ n + c))

theorem handleLackPathF_rounds (hh : h ≤ 9) : ∀ (n : Nat) (s : Tree E C) (last : Nat), Good A s lvl h → Thin s → lpar s l ≠ none →
    (Room s lvl h l n ∨ (1 ≤ n ∧ ∃ path, getPath s (.leaf l) = .ok path ∧ lackOnPath B s ((path.drop 1).dropLast).reverse 0 = .ok (last, s))) →
    handleLackPathF B n s (.leaf l) last ≠ .error .fuel := by
  intro n
  induction n with
  | zero =>
    rintro s last _ _ _ (⟨j, c, hc, -, -, h1 | h1⟩ | h1)
    · omega
    · omega
    · omega
  | succ n ih =>
    intro s last g th hl hn
    obtain ⟨i, rest, p1, p2, p3⟩ := getPath_leaf g.wf hh hl
    obtain ⟨k, s1, e1, g1, th1, sm1, it1, -⟩ := lackOnPath_spec (B := B) (rest.dropLast.reverse) s 0 g th (leaf_desc g.wf p2)
    have st := leaf_stair g.wf p2
    simp only [handleLackPathF, p1, bind_ok, List.drop_succ_cons, List.drop_zero, e1]
    by_cases hk : k = 0 ∨ k = last
    · rw [if_pos hk]; exact nf_ok _
    rw [if_neg hk]
    have hl1 := same_lpar sm1 hl
    rcases hn with ⟨j, c, hc, se, ha, ⟨hj, hn⟩ | ⟨hj, hn⟩⟩ | ⟨hn, path, q1, q2⟩
    · cases lackOnPath_settled _ _ 0 k s1 g th st (by rw [show h - 1 = j by omega]; exact se) e1
      exact ih s k g th hl (Or.inr ⟨by omega, _, p1, by simpa using e1⟩)
    · have fo : Fork s lvl l (h - 1) := by
        intro y hy hly
        rcases Nat.lt_or_ge (chs s y).length 2 with h4 | h4
        · refine Or.inr fun z hz hzl => ?_
          have := (g.wf.lvl_pos' hz.live).2
          cases hy.uniq g.wf hz (by omega)
          have := hz.ne
          omega
        · exact Or.inl h4
      obtain ⟨se1, h1⟩ := lackOnPath_up (B := B) j c hc _ _ s 0 k s1 g th st se fo ha (fun _ => by omega) e1
      have h1 : Settled s1 lvl l (j + 1) ∨ (c + 1 ≤ 5 ∧ Has s1 lvl l (j + 1) (c + 1)) := by
        rcases h1 with h1 | h1
        · exact Or.inl h1
        · rcases Nat.lt_or_ge c 5 with h2 | h2
          · exact Or.inr ⟨h2, h1⟩
          · refine Or.inl fun y hy hly => ?_
            by_cases hy1 : lvl y ≤ j
            · exact se1 y hy hy1
            · have := h1 y hy (by omega)
              exact Or.inl (by omega)
      refine ih s1 k g1 th1 hl1 (Or.inl ?_)
      rcases h1 with h1 | ⟨h1, h2⟩
      · exact ⟨j + 1, 1, by omega, h1, fun y hy _ => hy.ne, by omega⟩
      · exact ⟨j, c + 1, h1, se1, h2, Or.inr ⟨hj, by omega⟩⟩
    · rw [p1] at q1
      cases q1
      simp only [List.drop_succ_cons, List.drop_zero] at q2
      rw [e1] at q2
      cases q2
      exact absurd (Or.inr rfl) hk

theorem handleLackPathF_mono (B : Trait E C D) : ∀ n (s : Tree E C) (a : Idx) (last : Nat),
    FLe (handleLackPathF B n s a last) (handleLackPathF B (n + 1) s a last) := by
  intro n
  induction n with
  | zero => intro s a last; exact Or.inl rfl
  | succ n ih =>
    intro s a last
    rw [handleLackPathF, handleLackPathF.eq_def B (n + 1 + 1)]
    refine FLe.bind_same fun p => FLe.bind_same fun r => ?_
    dsimp only
    split
    · exact .refl _
    · exact ih _ _ _

end

end GB

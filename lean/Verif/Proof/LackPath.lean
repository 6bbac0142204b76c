import Verif.Proof.Seal
import Verif.Proof.LackSpine

/-!
# `seal` after a drain: only the left edge may be left with few children

`handle_lack_on_path_to_leaf` walks from the root down to a leaf and rebalances the nodes it meets.  After
one walk every node on the path has enough children, unless it is on the left edge or above another leaf
that is still to be treated.
-/

namespace GB
variable {E C D : Type}
open Tree

/-- node `y` is above leaf `l` -/
inductive LeafUp (s : Tree E C) (l : Nat) : Nat → Prop
  | leaf {p i : Nat} : Edge s p i (.leaf l) → LeafUp s l p
  | up {q p i : Nat} : LeafUp s l q → Edge s p i (.internal q) → LeafUp s l p

section
variable {B : Trait E C D} {A : Law B} {s s' : Tree E C} {lvl : Nat → Nat} {h p : Nat} {X : Idx → Prop} {Q : Prop}

theorem LeafUp.live {l y : Nat} (hy : LeafUp s l y) : lnk s y ≠ none := by
  cases hy with
  | leaf e => exact edge_live e
  | up _ e => exact edge_live e

/-- one node per level is above a leaf -/
theorem LeafUp.uniq (w : WF s lvl h) {l y : Nat} (hy : LeafUp s l y) : ∀ {z : Nat}, LeafUp s l z → lvl z = lvl y → z = y := by
  induction hy with
  | leaf e =>
    intro z hz hl
    cases hz with
    | leaf e' => exact (w.kid_lf_inj e' e).1
    | up hq e' =>
      have := (w.kin e').1
      have := (w.lvl_pos' hq.live).1
      have := (w.klf e).1
      omega
  | up hq e ih =>
    intro z hz hl
    cases hz with
    | leaf e' =>
      have := (w.kin e).1
      have := (w.lvl_pos' hq.live).1
      have := (w.klf e').1
      omega
    | up hq' e' =>
      have h1 := (w.kin e).1
      have h2 := (w.kin e').1
      cases ih hq' (by omega)
      exact (w.kid_in_inj e' e).1

theorem LeafUp.shape (sh : SameShape s s') {l y : Nat} (hy : LeafUp s l y) : LeafUp s' l y := by
  have he : ∀ {p i : Nat} {a : Idx}, Edge s p i a → Edge s' p i a := by
    intro p i a e; rw [Edge, sh.kids]; exact e
  induction hy with
  | leaf e => exact .leaf (he e)
  | up _ e ih => exact .up ih (he e)

/-- the only child of a node above `l` is above `l` -/
theorem LeafUp.only (w : WF s lvl h) {l p x : Nat} (hp : LeafUp s l p) (hk : kids s p = [.internal x]) : LeafUp s l x := by
  cases hp with
  | leaf e =>
    have : Idx.leaf l ∈ kids s p := mem_kids.mpr ⟨_, e⟩
    rw [hk] at this; simp at this
  | @up q _ _ hq e =>
    have : Idx.internal q ∈ kids s p := mem_kids.mpr ⟨_, e⟩
    rw [hk] at this; simp at this
    rw [← this]; exact hq

/-- no child gets lost when two nodes are rebalanced -/
theorem PairPost.inner {a b : Nat} (d : PairPost A s s' lvl h p a b X Q) (w : WF s lvl h) {c : Idx} (hc : c ∈ kids s a ∨ c ∈ kids s b) :
    ∃ x, (x = a ∨ x = b) ∧ .internal x ∈ kids s' p ∧ c ∈ kids s' x := by
  obtain ⟨L, R, M, h1, h2, h3, -⟩ := d.shape
  have nd := w.kids_nodup p
  rw [h1] at nd
  have hgr : ∀ t : Tree E C, (grand t p).map Child.arena = (kids t p).flatMap fun a => (chsI t a).map Child.arena := by
    intro t
    rw [grand, kids_chs, List.map_flatMap, List.flatMap_map]
  have hf := congrArg (List.map Child.arena) d.rg.flat
  rw [hgr, hgr, h1, h2] at hf
  have hfr : ∀ z ∈ L ++ R, (chsI s' z).map Child.arena = (chsI s z).map Child.arena := by
    intro z hz
    cases z with
    | leaf l => rfl
    | internal y =>
      have hm : Idx.internal y ∈ kids s p := by
        rw [h1]; simp only [List.mem_append] at hz ⊢; rcases hz with hz | hz <;> simp [hz]
      obtain ⟨i, hi⟩ := mem_kids.mp hm
      have hne : ∀ z, z = a ∨ z = b → y ≠ z := by
        rintro z hz' rfl
        rw [List.nodup_append, List.nodup_append] at nd
        rcases List.mem_append.mp hz with hz | hz
        · refine nd.1.2.2 _ hz (.internal y) ?_ rfl
          rcases hz' with rfl | rfl <;> simp
        · refine nd.2.2 (.internal y) ?_ _ hz rfl
          rcases hz' with rfl | rfl <;> simp
      simp only [chsI, d.frame y (kid_ne_self w hi) (hne a (Or.inl rfl)) (hne b (Or.inr rfl))]
  simp only [List.flatMap_append] at hf
  rw [flatMap_congr' (l := L) (fun z hz => hfr z (by simp [hz])), flatMap_congr' (l := R) (fun z hz => hfr z (by simp [hz]))] at hf
  have hf := List.append_cancel_left (List.append_cancel_right hf)
  have hcm : c ∈ M.flatMap fun a => (chsI s' a).map Child.arena := by
    rw [hf]
    simp only [List.flatMap_cons, List.flatMap_nil, List.append_nil, List.mem_append, chsI, ← kids_chs]
    exact hc
  rw [List.mem_flatMap] at hcm
  obtain ⟨x, hx, hcx⟩ := hcm
  have hx' : x = .internal a ∨ x = .internal b := by
    rcases h3 with rfl | ⟨rfl, -⟩ | ⟨rfl, -⟩ <;> simp at hx <;> simp [hx]
  rcases hx' with rfl | rfl
  · exact ⟨a, Or.inl rfl, by rw [h2]; simp [hx], by simpa [chsI, ← kids_chs] using hcx⟩
  · exact ⟨b, Or.inr rfl, by rw [h2]; simp [hx], by simpa [chsI, ← kids_chs] using hcx⟩

/-- Rebalancing keeps what is above a leaf. -/
theorem PairPost.up {a b : Nat} (d : PairPost A s s' lvl h p a b X Q) (w : WF s lvl h) {l y : Nat} (hy : LeafUp s l y) :
    (y ≠ a → y ≠ b → LeafUp s' l y) ∧ (y = a ∨ y = b → ∃ x, (x = a ∨ x = b) ∧ .internal x ∈ kids s' p ∧ LeafUp s' l x) := by
  obtain ⟨i0, ea, eb⟩ := d.edges
  have hpa := kid_ne_self w ea
  have hpb := kid_ne_self w eb
  have la := (w.kin ea).1
  have lb := (w.kin eb).1
  have pa := (w.lvl_pos' (kids_live_in w (mem_kids.mpr ⟨_, ea⟩))).1
  have hfr : ∀ q, q ≠ p → q ≠ a → q ≠ b → kids s' q = kids s q := fun q h1 h2 h3 => by rw [kids_chs, d.frame q h1 h2 h3, ← kids_chs]
  induction hy with
  | @leaf q i e =>
    refine ⟨fun h1 h2 => ?_, fun hq => ?_⟩
    · have : q ≠ p := by rintro rfl; have := (w.klf e).1; omega
      exact .leaf (i := i) (by rw [Edge, hfr q this h1 h2]; exact e)
    · have hm : Idx.leaf l ∈ kids s a ∨ Idx.leaf l ∈ kids s b := by
        rcases hq with rfl | rfl
        · exact Or.inl (mem_kids.mpr ⟨i, e⟩)
        · exact Or.inr (mem_kids.mpr ⟨i, e⟩)
      obtain ⟨x, hx, hxp, hlx⟩ := d.inner w hm
      obtain ⟨j, hj⟩ := mem_kids.mp hlx
      exact ⟨x, hx, hxp, .leaf hj⟩
  | @up q y i hq e ih =>
    refine ⟨fun h1 h2 => ?_, fun hy => ?_⟩
    · by_cases hyp : y = p
      · subst hyp
        by_cases hqab : q = a ∨ q = b
        · obtain ⟨x, -, hx, hu⟩ := ih.2 hqab
          obtain ⟨j, hj⟩ := mem_kids.mp hx
          exact .up hu hj
        · have hqa : q ≠ a := fun e => hqab (Or.inl e)
          have hqb : q ≠ b := fun e => hqab (Or.inr e)
          obtain ⟨L, R, M, k1, k2, -⟩ := d.shape
          have hm : Idx.internal q ∈ kids s y := mem_kids.mpr ⟨i, e⟩
          have : Idx.internal q ∈ kids s' y := by
            rw [k1] at hm; rw [k2]
            simp only [List.mem_append, List.mem_cons, Idx.internal.injEq, hqa, hqb, List.not_mem_nil, or_false] at hm ⊢
            rcases hm with hm | hm <;> simp [hm]
          obtain ⟨j, hj⟩ := mem_kids.mp this
          exact .up (ih.1 hqa hqb) hj
      · have hq1 : ∀ z j, Edge s p j (.internal z) → q ≠ z := by
          rintro z j ez rfl
          exact hyp (w.kid_in_inj e ez).1
        refine .up (i := i) (ih.1 (hq1 a _ ea) (hq1 b _ eb)) ?_
        rw [Edge, hfr y hyp h1 h2]; exact e
    · have hm : Idx.internal q ∈ kids s a ∨ Idx.internal q ∈ kids s b := by
        rcases hy with rfl | rfl
        · exact Or.inl (mem_kids.mpr ⟨i, e⟩)
        · exact Or.inr (mem_kids.mpr ⟨i, e⟩)
      have lq := (w.kin e).1
      obtain ⟨x, hx, hxp, hlx⟩ := d.inner w hm
      obtain ⟨j, hj⟩ := mem_kids.mp hlx
      refine ⟨x, hx, hxp, .up (ih.1 ?_ ?_) hj⟩
      · rintro rfl; rcases hy with rfl | rfl <;> omega
      · rintro rfl; rcases hy with rfl | rfl <;> omega

/-- every node has `n` children, or is on the left edge, or is above a leaf of `F` -/
def Occ (n : Nat) (F : Nat → Prop) (s : Tree E C) : Prop :=
  ∀ y, lnk s y ≠ none → n ≤ (chs s y).length ∨ LSp s y ∨ ∃ a, F a ∧ LeafUp s a y

/-- the same during a walk to leaf `l`, before the node of level `k` is treated -/
structure OccAt (n : Nat) (F : Nat → Prop) (lvl : Nat → Nat) (l k : Nat) (s : Tree E C) : Prop where
  low : ∀ y, lnk s y ≠ none → n ≤ (chs s y).length ∨ LSp s y ∨ (∃ a, F a ∧ LeafUp s a y) ∨ (LeafUp s l y ∧ lvl y ≤ k)
  par : ∀ y, LeafUp s l y → lvl y = k + 1 → n + 1 ≤ (chs s y).length ∨ LSp s y ∨ ∃ a, F a ∧ LeafUp s a y

/-- One call of `handle_lack_single_layer` on the walk. -/
theorem lackStep_occ {n l k x : Nat} {F : Nat → Prop} {r : Option Nat} (hn : n ≤ 5) (g : Good A s lvl h) (th : Thin s) (hr : x ≠ s.root)
    (hxl : LeafUp s l x) (hxk : lvl x = k + 1) (e1 : handleLackSingle B s x = .ok (r, s')) (o : OccAt n F lvl l (k + 1) s) :
    OccAt n F lvl l k s' ∧ ∀ y, LeafUp s l y → lvl y ≤ k → LeafUp s' l y := by
  have hx := hxl.live
  obtain ⟨p, i, he⟩ := g.wf.par_in' hx hr
  have hlk := (g.wf.kin he).2
  have hlp := (g.wf.kin he).1
  have hpl : LeafUp s l p := .up hxl he
  obtain ⟨r', s2, e1', e2⟩ := lackSingle_spec g.toX (fun _ _ hf => hf) hlk
    (fun y hy => (th y (kids_live_in g.wf hy)).1)
    (fun y hy => Or.inl ((th y (kids_live_in g.wf hy)).2 (by
      rintro rfl; obtain ⟨i, hi⟩ := mem_kids.mp hy; exact g.wf.root_not_kid hi)))
  rw [e1] at e1'
  cases e1'
  cases e2 with
  | empty le hx0 d => exact absurd hx0 ((th x hx).2 hr)
  | alone hx0 hp =>
    have hkp : kids s p = [.internal x] := by
      have hlen : (kids s p).length = 1 := by rw [kids_chs, List.length_map, hp]
      obtain ⟨c, hc⟩ := List.length_eq_one_iff.mp hlen
      have : Idx.internal x ∈ kids s p := mem_kids.mpr ⟨i, he⟩
      rw [hc] at this ⊢; simp at this; rw [this]
    have hxf : n + 1 ≤ (chs s x).length ∨ LSp s x ∨ ∃ a, F a ∧ LeafUp s a x := by
      rcases o.par p hpl (by omega) with h1 | h1 | ⟨a, h1, h2⟩
      · have : n = 0 := by omega
        subst this
        left
        have := List.length_pos_iff.mpr hx0
        omega
      · exact Or.inr (Or.inl (.step h1 (by rw [hkp]; rfl)))
      · exact Or.inr (Or.inr ⟨a, h1, h2.only g.wf hkp⟩)
    refine ⟨⟨fun y hy => ?_, fun y hy hl => ?_⟩, fun y hy _ => hy⟩
    · rcases o.low y hy with h1 | h1 | h1 | ⟨h1, h2⟩
      · exact Or.inl h1
      · exact Or.inr (Or.inl h1)
      · exact Or.inr (Or.inr (Or.inl h1))
      · by_cases hyx : lvl y = lvl x
        · cases hxl.uniq g.wf h1 hyx
          rcases hxf with h3 | h3 | h3
          · exact Or.inl (by omega)
          · exact Or.inr (Or.inl h3)
          · exact Or.inr (Or.inr (Or.inl h3))
        · exact Or.inr (Or.inr (Or.inr ⟨h1, by omega⟩))
    · cases hxl.uniq g.wf hy (by omega)
      exact hxf
  | @pair _ a b hx0 hab ha hb hne d =>
    obtain ⟨ia, hia⟩ := mem_kids.mp ha
    obtain ⟨ib, hib⟩ := mem_kids.mp hb
    have w := g.wf
    have w' := d.good.wf
    have hap : a ≠ p := kid_ne_self w hia
    have hbp : b ≠ p := kid_ne_self w hib
    have la := (w.kin hia).1
    have lb := (w.kin hib).1
    have sa := kids_live_in w ha
    have sb := kids_live_in w hb
    have na : chs s a ≠ [] := (th a sa).2 (by rintro rfl; exact w.root_not_kid hia)
    have nb : chs s b ≠ [] := (th b sb).2 (by rintro rfl; exact w.root_not_kid hib)
    have na := List.length_pos_iff.mpr na
    have nb := List.length_pos_iff.mpr nb
    -- the rebalanced nodes
    have hM : ∀ y, (y = a ∨ y = b) → lnk s' y ≠ none → n + 1 ≤ (chs s' y).length ∨ LSp s' y ∨ ∃ a, F a ∧ LeafUp s' a y := by
      intro y hy hy'
      rcases (d.pair y hy' hy).2 with h6 | hsum
      · left; omega
      rcases d.kind with ⟨-, -, k3, k4, -⟩ | hdead
      · left; rcases hy with rfl | rfl <;> omega
      -- the other node of the pair
      have hz : ∀ z, (z = a ∨ z = b) → z ≠ x → n + 1 ≤ (chs s' y).length ∨ LSp s' y ∨ ∃ a, F a ∧ LeafUp s' a y := by
        intro z hz hzx
        have hzl : lnk s z ≠ none := by rcases hz with rfl | rfl <;> assumption
        rcases o.low z hzl with h1 | h1 | ⟨f, h1, h2⟩ | ⟨h1, -⟩
        · left; rcases hz with rfl | rfl <;> omega
        · rcases hz with rfl | rfl
          · rcases d.lsm w h1 hy hy' with h2 | h2
            · left; omega
            · exact Or.inr (Or.inl h2)
          · exact absurd h1 (d.not_lsp w)
        · right; right
          obtain ⟨y', hy1, -, hy3⟩ := (d.up w h2).2 hz
          have : y' = y := by
            have hl' := hy3.live
            rcases hdead with hdead | hdead
            · rcases hy with rfl | rfl
              · exact absurd hdead hy'
              · rcases hy1 with rfl | rfl
                · exact absurd hdead hl'
                · rfl
            · rcases hy with rfl | rfl
              · rcases hy1 with rfl | rfl
                · rfl
                · exact absurd hdead hl'
              · exact absurd hdead hy'
          exact ⟨f, h1, this ▸ hy3⟩
        · refine absurd (hxl.uniq w h1 ?_) hzx
          rcases hz with rfl | rfl <;> omega
      rcases hab with rfl | rfl
      · exact hz b (Or.inr rfl) (Ne.symm hne)
      · exact hz a (Or.inl rfl) hne
    have hF : ∀ y, y ≠ a → y ≠ b → (∃ f, F f ∧ LeafUp s f y) → ∃ f, F f ∧ LeafUp s' f y := by
      rintro y h1 h2 ⟨f, hf, hu⟩
      exact ⟨f, hf, (d.up w hu).1 h1 h2⟩
    refine ⟨⟨fun y hy => ?_, fun y hy hl => ?_⟩, fun y hy hl => (d.up w hy).1 (by rintro rfl; omega) (by rintro rfl; omega)⟩
    · have hys := d.live y hy
      by_cases hyab : y = a ∨ y = b
      · rcases hM y hyab hy with h1 | h1 | h1
        · exact Or.inl (by omega)
        · exact Or.inr (Or.inl h1)
        · exact Or.inr (Or.inr (Or.inl h1))
      · have hya : y ≠ a := fun e => hyab (Or.inl e)
        have hyb : y ≠ b := fun e => hyab (Or.inr e)
        by_cases hyp : y = p
        · subst hyp
          rcases o.par y hpl (by omega) with h1 | h1 | h1
          · have := d.plen.2
            exact Or.inl (by omega)
          · exact Or.inr (Or.inl (d.ls w h1 hy))
          · exact Or.inr (Or.inr (Or.inl (hF y hya hyb h1)))
        · rcases o.low y hys with h1 | h1 | h1 | ⟨h1, h2⟩
          · exact Or.inl (by rw [d.frame y hyp hya hyb]; exact h1)
          · exact Or.inr (Or.inl (d.ls w h1 hy))
          · exact Or.inr (Or.inr (Or.inl (hF y hya hyb h1)))
          · refine Or.inr (Or.inr (Or.inr ⟨(d.up w h1).1 hya hyb, ?_⟩))
            have : lvl y ≠ lvl x := by
              intro e
              have := hxl.uniq w h1 e
              subst this
              exact hyab hab
            omega
    · obtain ⟨x', h1, h2, h3⟩ := (d.up w hxl).2 hab
      have : y = x' := h3.uniq w' hy (by rcases h1 with rfl | rfl <;> omega)
      subst this
      exact hM y h1 hy.live

/-- the inner nodes above a leaf except the root, from level `k` down to level 1 -/
inductive Stair (s : Tree E C) (lvl : Nat → Nat) (l : Nat) : Nat → List PIdx → Prop
  | nil : Stair s lvl l 0 []
  | cons {x i k : Nat} {rest : List PIdx} : LeafUp s l x → lvl x = k + 1 → x ≠ s.root → Stair s lvl l k rest →
      Stair s lvl l (k + 1) (⟨.internal x, i⟩ :: rest)

theorem Stair.keep {l : Nat} {L : List PIdx} : ∀ {k k0 : Nat}, Stair s lvl l k L → k ≤ k0 → s'.root = s.root →
    (∀ y, LeafUp s l y → lvl y ≤ k0 → LeafUp s' l y) → Stair s' lvl l k L := by
  intro k k0 st
  induction st with
  | nil => intro _ _ _; exact .nil
  | cons h1 h2 h3 _ ih =>
    intro hk hr hu
    exact .cons (hu _ h1 (by omega)) h2 (by rw [hr]; exact h3) (ih (by omega) hr hu)

theorem lackOnPath_occ {n l : Nat} {F : Nat → Prop} (hn : n ≤ 5) : ∀ (path : List PIdx) (k : Nat) (s : Tree E C) (c c' : Nat) (s' : Tree E C),
    Good A s lvl h → Thin s → Stair s lvl l k path → OccAt n F lvl l k s → lackOnPath B s path c = .ok (c', s') →
    OccAt n F lvl l 0 s' := by
  intro path
  induction path with
  | nil =>
    intro k s c c' s' g th st o e
    cases st
    cases e
    exact o
  | cons i rest ih =>
    intro k s c c' s' g th st o e
    cases st with
    | @cons x i k _ hx hl hr st =>
      obtain ⟨N, hN⟩ := lnk_isSome.mp hx.live
      by_cases hlk : (chs s x).length < 6
      · have hlk' : N.isLack = true := by rw [Node.isLack, ← chs_of hN]; exact decide_eq_true hlk
        obtain ⟨r, s1, e1, g1, th1, sm1, -⟩ := lackStep g th hx.live hr hlk
        obtain ⟨o1, u1⟩ := lackStep_occ hn g th hr hx hl e1 o
        simp only [lackOnPath, Idx.unwrapInternal, bind_ok, getIn_ok hN, hlk', if_true, e1] at e
        exact ih k s1 _ c' s' g1 th1 (st.keep (Nat.le_refl _) sm1.root u1) o1 e
      · have hlk' : N.isLack = false := by rw [Node.isLack, ← chs_of hN]; exact decide_eq_false hlk
        simp only [lackOnPath, Idx.unwrapInternal, bind_ok, getIn_ok hN, hlk'] at e
        refine ih k s _ c' s' g th st ⟨fun y hy => ?_, fun y hy hly => ?_⟩ e
        · rcases o.low y hy with h1 | h1 | h1 | ⟨h1, h2⟩
          · exact Or.inl h1
          · exact Or.inr (Or.inl h1)
          · exact Or.inr (Or.inr (Or.inl h1))
          · by_cases hyx : lvl y = lvl x
            · cases hx.uniq g.wf h1 hyx
              exact Or.inl (by omega)
            · exact Or.inr (Or.inr (Or.inr ⟨h1, by omega⟩))
        · cases hx.uniq g.wf hy (by omega)
          exact Or.inl (by omega)

theorem PathTo.stair_in (w : WF s lvl h) {l : Nat} : ∀ {path : List PIdx}, PathTo s path → ∀ {x i rest}, path = ⟨.internal x, i⟩ :: rest →
    LeafUp s l x → ∀ (k : Nat) (L : List PIdx), lvl x = k + 1 → Stair s lvl l k L → Stair s lvl l (h - 1) (path.dropLast.reverse ++ L) := by
  intro path hp
  induction hp with
  | root =>
    intro x i rest e hx k L hl st
    cases e
    rw [w.root_lvl] at hl
    rw [hl]; simpa using st
  | @step a i p j rest he hp ih =>
    intro x i' rest' e hx k L hl st
    cases e
    rw [List.dropLast_cons_of_ne_nil (by simp), List.reverse_cons, List.append_assoc]
    refine ih rfl (.up hx he) (k + 1) _ (by rw [(w.kin he).1, hl]) (.cons hx hl (by rintro rfl; exact w.root_not_kid he) st)

theorem leaf_stair (w : WF s lvl h) {l i : Nat} {rest : List PIdx} (hp : PathTo s (⟨.leaf l, i⟩ :: rest)) :
    Stair s lvl l (h - 1) (rest.dropLast.reverse) := by
  generalize hpath : (⟨.leaf l, i⟩ :: rest : List PIdx) = path at hp
  cases hp with
  | root => cases hpath
  | @step a i p j rest' he hp =>
    cases hpath
    have := hp.stair_in w rfl (.leaf he) 0 [] (w.klf he).1 .nil
    simpa using this

theorem handleLackPathF_occ {n l : Nat} {F : Nat → Prop} (hn : n ≤ 5) (hh : h ≤ 9) : ∀ (fuel : Nat) (s : Tree E C) (last : Nat) (s' : Tree E C),
    Good A s lvl h → Thin s → lpar s l ≠ none → Occ n (fun a => F a ∨ a = l) s → handleLackPathF B fuel s (.leaf l) last = .ok s' → Occ n F s' := by
  intro fuel
  induction fuel with
  | zero => intro s last s' _ _ _ _ e; cases e
  | succ fuel ih =>
    intro s last s' g th hl o e
    obtain ⟨i, rest, p1, p2, p3⟩ := getPath_leaf g.wf hh hl
    obtain ⟨k, s1, e1, g1, th1, sm1, it1, -⟩ := lackOnPath_spec (B := B) (rest.dropLast.reverse) s 0 g th (leaf_desc g.wf p2)
    have oa : OccAt n F lvl l (h - 1) s := by
      have hp := g.wf.h_pos
      refine ⟨fun y hy => ?_, fun y hy hly => ?_⟩
      · rcases o y hy with h1 | h1 | ⟨a, h1 | rfl, h2⟩
        · exact Or.inl h1
        · exact Or.inr (Or.inl h1)
        · exact Or.inr (Or.inr (Or.inl ⟨a, h1, h2⟩))
        · by_cases hly : lvl y ≤ h - 1
          · exact Or.inr (Or.inr (Or.inr ⟨h2, hly⟩))
          · have hr : y = s.root := Decidable.byContradiction fun hr => by
              obtain ⟨p, i, he⟩ := g.wf.par_in' hy hr
              have := (g.wf.kin he).1
              have := (g.wf.lvl_pos' (edge_live he)).2
              omega
            subst hr
            exact Or.inr (Or.inl .root)
      · have hr : y = s.root := Decidable.byContradiction fun hr => by
          obtain ⟨p, i, he⟩ := g.wf.par_in' hy.live hr
          have := (g.wf.kin he).1
          have := (g.wf.lvl_pos' (edge_live he)).2
          omega
        subst hr
        exact Or.inr (Or.inl .root)
    have o0 := lackOnPath_occ hn _ _ s 0 k s1 g th (leaf_stair g.wf p2) oa e1
    have o1 : Occ n F s1 := by
      intro y hy
      rcases o0.low y hy with h1 | h1 | h1 | ⟨-, h1⟩
      · exact Or.inl h1
      · exact Or.inr (Or.inl h1)
      · exact Or.inr (Or.inr h1)
      · have := (g1.wf.lvl_pos' hy).1; omega
    simp only [handleLackPathF, p1, bind_ok, List.drop_succ_cons, List.drop_zero, e1] at e
    by_cases hk : k = 0 ∨ k = last
    · rw [if_pos hk] at e
      cases e
      exact o1
    · rw [if_neg hk] at e
      refine ih s1 k s' g1 th1 (same_lpar sm1 hl) (fun y hy => ?_) e
      rcases o1 y hy with h1 | h1 | ⟨a, h1, h2⟩
      · exact Or.inl h1
      · exact Or.inr (Or.inl h1)
      · exact Or.inr (Or.inr ⟨a, Or.inl h1, h2⟩)

/-- the bound after a drain: off the left edge the same, on the left edge one child -/
def Fill.drained (m : Fill) : Fill := ⟨1, m.lo + m.d - 1⟩

theorem Fill.drained_self {m : Fill} (hm : m.lo = 1) : m.drained = m := by
  cases m with
  | mk lo d => cases hm; show (⟨1, 1 + d - 1⟩ : Fill) = ⟨1, d⟩; rw [Nat.add_sub_cancel_left]

theorem Fill.drained_le {m : Fill} (hm : 1 ≤ m.lo) : m.drained.lo ≤ m.lo ∧ m.drained.lo + m.drained.d ≤ m.lo + m.d :=
  ⟨hm, by simp only [Fill.drained]; omega⟩

theorem Fill.drained_ok {m : Fill} (hm : 1 ≤ m.lo ∧ m.lo + m.d ≤ 5) : 1 ≤ m.drained.lo ∧ m.drained.lo + m.drained.d ≤ 5 :=
  ⟨Nat.le_refl 1, by simp only [Fill.drained]; omega⟩

theorem Occ.szx {m : Fill} (hm1 : 1 ≤ m.lo) (th : Thin s) (o : Occ (m.lo + m.d) (fun _ => False) s) : SzX m.drained s h (fun y => y = s.root) := by
  intro y hy hr
  refine ⟨(th y hy).1, fun hn => ⟨?_, fun hls => ?_⟩, fun e => absurd e hr⟩
  · exact List.length_pos_iff.mpr ((th y hy).2 hn)
  · show 1 + (m.lo + m.d - 1) ≤ _
    rcases o y hy with h1 | h1 | ⟨_, h1, -⟩
    · omega
    · exact absurd h1 hls
    · exact absurd h1 id

/-- `seal` keeps the leaves, and repairs the nodes above the leaf and above the leaf behind it. -/
theorem sealTree_occ {m : Fill} (hm1 : 1 ≤ m.lo) (hm5 : m.lo + m.d ≤ 5) (hh : h ≤ 9) {l : Nat} {U V : List Nat} (g : Good A s lvl h) (th : Thin s)
    (ho : order s = U ++ l :: V) (o : Occ (m.lo + m.d) (fun a => V.head? = some a ∨ a = l) s) :
    ∃ s' lvl' h', sealTree B s (.leaf l) = .ok s' ∧ Good A s' lvl' h' ∧ Sz m.drained s' h' ∧ h' ≤ h ∧ Same s s' := by
  have hl : lpar s l ≠ none := (mem_order g.wf).mp (by rw [ho]; simp)
  obtain ⟨s1, e1, g1, th1, sm1, it1⟩ := handleLackPath_spec (B := B) hh g th hl
  have oc1 := handleLackPathF_occ hm5 hh _ s 0 s1 g th hl o e1
  have hl1 := same_lpar sm1 hl
  obtain ⟨u, v, o1, o2⟩ := nextSameLevelLeaf_spec g1.wf th1.ne hl1
  have huv : v = V := by
    have nd := order_nodup g.wf
    have e := sm1.order
    rw [o1, ho] at e
    rw [ho] at nd
    exact (nodup_append_cons_inj e.symm nd).2.symm
  subst huv
  have mid : ∃ s2, (do
      match ← nextSameLevel s1 (.leaf l) with
      | some sib => handleLackPath B s1 sib
      | none => pure s1 : M (Tree E C)) = .ok s2 ∧ Good A s2 lvl h ∧ Thin s2 ∧ Same s1 s2 ∧ Occ (m.lo + m.d) (fun _ => False) s2 := by
    rw [nextSameLevel, o2]
    cases v with
    | nil => exact ⟨s1, rfl, g1, th1, Same.refl _, fun y hy => by
        rcases oc1 y hy with h1 | h1 | ⟨a, h1, -⟩
        · exact Or.inl h1
        · exact Or.inr (Or.inl h1)
        · cases h1⟩
    | cons b v =>
      have hb : lpar s1 b ≠ none := (mem_order g1.wf).mp (by rw [o1]; simp)
      obtain ⟨s2, f1, f2, f3, f4, -⟩ := handleLackPath_spec (B := B) hh g1 th1 hb
      refine ⟨s2, f1, f2, f3, f4, handleLackPathF_occ hm5 hh _ s1 0 s2 g1 th1 hb (fun y hy => ?_) f1⟩
      rcases oc1 y hy with h1 | h1 | ⟨a, h1, h2⟩
      · exact Or.inl h1
      · exact Or.inr (Or.inl h1)
      · cases h1
        exact Or.inr (Or.inr ⟨_, Or.inr rfl, h2⟩)
  obtain ⟨s2, f1, g2, th2, sm2, oc2⟩ := mid
  have hroot : lnk s2 s2.root ≠ none := by obtain ⟨i, hi⟩ := g2.wf.root'; rw [hi]; simp
  obtain ⟨s3, lvl3, h3, r1, r2, r3, r4, -, r6, -⟩ := tryReduce_spec (m := m.drained) (Nat.le_refl 1) g2 (oc2.szx hm1 th2) (th2 _ hroot).1
  refine ⟨s3, lvl3, h3, ?_, r2, r3, r4, (sm1.trans sm2).trans r6⟩
  simp only [sealTree, e1, bind_ok]
  exact (congrArg (fun r => r >>= fun s => tryReduceLevels s) f1).trans r1

end
end GB

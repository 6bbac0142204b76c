import Verif.Proof.Lack3

/-!
# `handle_lack_single_layer`: the whole step at a node that is not the root
-/

namespace GB
variable {E C D : Type}
open Tree

section
variable {B : Trait E C D} {A : Law B} {s : Tree E C} {lvl : Nat → Nat} {h p : Nat}

theorem lackBorrow_spec {X : Idx → Prop} {Q : Prop} (g : GoodX A s lvl h X Q) (hX : ∀ a ∈ kids s p, ¬ X a) 
    (hl : 2 ≤ lvl p) {a b i : Nat} {ca cb : Child C} {Na Nb : Node C}
    {L R : List (Child C)} (hk : chs s p = L ++ [ca, cb] ++ R) (hi : L.length = i)
    (hca : ca.arena = .internal a) (hcb : cb.arena = .internal b)
    (ha : s.inn.get a = some Na) (hb : s.inn.get b = some Nb)
    (hne : ∀ x, .internal x ∈ kids s p → chs s x ≠ [] ∨ LawE A)
    (hge : 12 ≤ Na.children.length + Nb.children.length) (la : Na.children.length ≤ 11) (lb : Nb.children.length ≤ 11)
    (nd : ((Na.children ++ Nb.children).map Child.arena).Nodup) :
    ∃ s', lackBorrow B s p a b i (i + 1) ca cb Na Nb =
        .ok (if (chs s' p).length < 6 then some p else none, s') ∧ PairPost A s s' lvl h p a b X Q := by
  rw [lackBorrow_eq]
  have nd0 := nd
  rw [List.map_append, List.nodup_append] at nd
  obtain ⟨nda, ndb, dis⟩ := nd
  have amem : ∀ {j : Nat} {c : Child C} {l : List (Child C)}, l[j]? = some c → c.arena ∈ l.map Child.arena :=
    fun hc => List.mem_map_of_mem (List.mem_of_getElem? hc)
  split
  · next hlt =>
    generalize hm : (Nb.children.length - Na.children.length) / 2 = m
    have hml : m ≤ Nb.children.length := by omega
    have tl : (Nb.children.take m).length = m := by rw [List.length_take]; omega
    have ndt : (((Nb.children.take m) ++ (Nb.children.drop m)).map Child.arena).Nodup := by
      rw [List.take_append_drop]; exact ndb
    rw [List.map_append, List.nodup_append] at ndt
    apply lackMove_spec g hX hl hk hi hca hcb ha hb hne
    · rw [List.append_assoc, List.take_append_drop]
    · rw [List.length_append, tl]; omega
    · rw [List.length_drop]; omega
    · intro j c hc
      rw [List.getElem?_append] at hc
      split at hc
      · next hj =>
        right
        refine ⟨?_, hc⟩
        have hca' := amem hc
        rw [look_append, look_entries_none, look_entries_none]
        · rfl
        · intro hm2
          obtain ⟨c2, h2, h3⟩ := List.mem_map.mp hm2
          exact dis _ hca' _ (List.mem_map_of_mem (List.mem_of_mem_take h2)) h3.symm
        · intro hm2
          obtain ⟨c2, h2, h3⟩ := List.mem_map.mp hm2
          exact dis _ hca' _ (List.mem_map_of_mem (List.mem_of_mem_drop h2)) h3.symm
      · next hj =>
        left
        rw [look_append, look_entries_none, look_entries_some ndt.1 hc]
        · simp only [Option.none_or, Option.some.injEq, Prod.mk.injEq, true_and]; omega
        · intro hm2
          exact ndt.2.2 _ (amem hc) _ hm2 rfl
    · intro j c hc
      left
      rw [look_append, look_entries_some ndt.2.1 hc]
      simp
    · intro e he
      rw [List.mem_append] at he
      right
      rcases he with he | he
      · obtain ⟨c, h1, h2⟩ := mem_entries he
        rw [← h2]; exact List.mem_map_of_mem (List.mem_of_mem_take h1)
      · obtain ⟨c, h1, h2⟩ := mem_entries he
        rw [← h2]; exact List.mem_map_of_mem (List.mem_of_mem_drop h1)
  · next hlt =>
    generalize hm : (Na.children.length - Nb.children.length) / 2 = m
    generalize hq : Na.children.length - m = q
    have tl : (Na.children.take q).length = q := by rw [List.length_take]; omega
    have ndt : (((Na.children.take q) ++ (Na.children.drop q ++ Nb.children)).map Child.arena).Nodup := by
      rw [← List.append_assoc, List.take_append_drop]; exact nd0
    rw [List.map_append, List.nodup_append] at ndt
    apply lackMove_spec g hX hl hk hi hca hcb ha hb hne
    · rw [← List.append_assoc, List.take_append_drop]
    · rw [tl]; omega
    · rw [List.length_append, List.length_drop]; omega
    · intro j c hc
      right
      have hj : j < q := by have := (List.getElem?_eq_some_iff.mp hc).1; omega
      refine ⟨?_, ?_⟩
      · rw [look_append, look_entries_none, look_entries_none]
        · rfl
        · intro hm2
          exact ndt.2.2 _ (amem hc) _ (by rw [List.map_append]; exact List.mem_append.mpr (Or.inr hm2)) rfl
        · intro hm2
          exact ndt.2.2 _ (amem hc) _ hm2 rfl
      · rw [List.getElem?_take, if_pos hj] at hc; exact hc
    · intro j c hc
      left
      rw [look_append, look_entries_some ndt.2.1 hc]
      simp
    · intro e he
      rw [List.mem_append] at he
      rcases he with he | he
      · obtain ⟨c, h1, h2⟩ := mem_entries he
        rw [← h2]; exact Or.inr (List.mem_map_of_mem h1)
      · obtain ⟨c, h1, h2⟩ := mem_entries he
        rw [List.mem_append] at h1
        rw [← h2]
        rcases h1 with h1 | h1
        · exact Or.inl (List.mem_map_of_mem (List.mem_of_mem_drop h1))
        · exact Or.inr (List.mem_map_of_mem h1)

/-- result of removing the empty node `x` below `p` -/
structure DelPost {B : Trait E C D} (A : Law B) (s s' : Tree E C) (lvl : Nat → Nat) (h p x : Nat)
    (X : Idx → Prop) (Q : Prop) : Prop where
  good : GoodX A s' lvl h X Q
  ptot : A.total (cch s' p) = A.total (cch s p)
  rc : s'.rootCache = s.rootCache
  same : Same s s'
  live : ∀ y, lnk s' y ≠ none ↔ lnk s y ≠ none ∧ y ≠ x
  frame : ∀ y, y ≠ p → chs s' y = chs s y
  plen : (chs s' p).length + 1 = (chs s p).length
  kids : ∃ d, Edge s p d (.internal x) ∧ GB.kids s' p = (GB.kids s p).eraseIdx d
  items : s'.inn.items.length = s.inn.items.length

/-- Removal of an empty node from its parent. -/
theorem del_empty {X : Idx → Prop} {Q : Prop} (g : GoodX A s lvl h X Q) (hX : ∀ a ∈ kids s p, ¬ X a) 
    (le : LawE A) {d x : Nat} (he : Edge s p d (.internal x)) (hx : chs s x = [])
    {t : Tree E C} (hlnk : ∀ y, lnk t y = lnk s y) (hp : chs t p = (chs s p).eraseIdx d)
    (hfr : ∀ y, y ≠ p → chs t y = chs s y) (root : t.root = s.root) (hrc : t.rootCache = s.rootCache)
    (items : t.inn.items.length = s.inn.items.length) (hlf : t.lf = s.lf) :
    ∃ t', updSlotsFrom (freeIn t x) p d = .ok t' ∧ DelPost A s t' lvl h p x X Q := by
  have hxp : x ≠ p := kid_ne_self g.wf he
  have hk : kids t p = (kids s p).eraseIdx d := by
    rw [kids_chs, hp, kids_chs, List.eraseIdx_eq_take_drop_succ, List.eraseIdx_eq_take_drop_succ]; simp
  obtain ⟨t', u1, u2, u3, u4, u5, u6, u7⟩ := del_slot g.wf he hlnk hk
  obtain ⟨cx, hcx, hcxa⟩ := edge_chs.mp he
  have hdl := (List.getElem?_eq_some_iff.mp hcx).1
  have hsp : chs s p = (chs s p).take d ++ [cx] ++ (chs s p).drop (d + 1) := by
    have := (List.getElem?_eq_some_iff.mp hcx).2
    rw [List.append_assoc, ← this]; simp
  have hl : 2 ≤ lvl p := by
    have := (g.wf.kin he).1
    have := (g.wf.lvl_pos' (kids_live_in g.wf (mem_kids.mpr ⟨_, he⟩))).1
    omega
  have c' : ∀ y, chs t' y = if y = x then [] else chs t y := by intro y; rw [u2.chs, chs_free]
  have t'p : chs t' p = (chs s p).take d ++ [] ++ (chs s p).drop (d + 1) := by
    rw [c', if_neg (Ne.symm hxp), hp, List.eraseIdx_eq_take_drop_succ]; simp
  have fr : ∀ y, y ≠ p → chs t' y = chs s y := by
    intro y hy
    rw [c']
    split
    · next e => subst e; exact hx.symm
    · exact hfr y hy
  have elm' : ∀ l, elm t' l = elm s l := by intro l; simp only [elm, u3, hlf]
  have lpar' : ∀ l, lpar t' l = lpar s l := by intro l; simp only [lpar, u3, hlf]
  have rg : Regroup s t' p := by
    refine regroup_block g.wf hl (Kc := [cx]) (Mc := []) hsp t'p (by simp) (by rw [u2.root]; exact root)
      (by rw [u2.items]; simpa using items) elm' ?_ u4 ?_ ?_ ?_ (by simp) (by simp) ?_ (fun l _ => lpar' l)
    · exact u5 p (by intro hm; obtain ⟨j, hj⟩ := mem_kids.mp hm; exact kid_ne_self g.wf hj rfl)
    · intro y hy _
      simp only [List.map_cons, List.map_nil, List.mem_cons, List.not_mem_nil, or_false, hcxa, Idx.internal.injEq] at hy
      rw [hy]; exact u6
    · intro y hy _; exact fr y hy
    · simp [hcxa, chsI, hx]
    · intro y hy _; exact u5 y hy
  have hlive : ∀ y, lnk t' y ≠ none ↔ lnk s y ≠ none ∧ y ≠ x := by
    intro y
    by_cases hyx : y = x
    · subst hyx; simp [u6]
    · simp [u7 y hyx, hyx]
  have hmem : ∀ c ∈ chs t' p, c ∈ chs s p ∧ ∃ y, c.arena = .internal y ∧ y ≠ p := by
    intro c hc
    rw [t'p] at hc
    have hcs : c ∈ chs s p := by
      simp only [List.append_nil, List.mem_append] at hc
      rcases hc with hc | hc
      · exact List.mem_of_mem_take hc
      · exact List.mem_of_mem_drop hc
    have hm : c.arena ∈ kids s p := by rw [kids_chs]; exact List.mem_map_of_mem hcs
    obtain ⟨y, hy⟩ := kids_internal g.wf hl _ hm
    rw [hy] at hm
    obtain ⟨j, hj⟩ := mem_kids.mp hm
    exact ⟨hcs, y, hy, kid_ne_self g.wf hj⟩
  have g' := rg.goodX (A := A) g hX (edge_live he) hl (by rw [u2.rootCache]; exact hrc) (fun _ _ => Or.inr le)
    (fun _ _ => Or.inr le) (by intro e; rw [e] at hcx; simp at hcx) (Or.inr le)
    (fun c hc => g.cok p c (hmem c hc).1)
    (by
      intro c hc
      obtain ⟨h1, y, h2, h3⟩ := hmem c hc
      have := g.cinv p c h1 (hX _ (by rw [kids_chs]; exact List.mem_map_of_mem h1))
      simp only [EntryOK, h2, cch] at this ⊢
      rw [this, fr y h3])
  refine ⟨t', u1, ?_⟩
  have hit : t'.inn.items.length = s.inn.items.length := by rw [u2.items]; simpa using items
  refine ⟨g'.1.congr_lvl (fun y hy => (relvl_live ((hlive y).mp hy).1).symm), g'.2, by rw [u2.rootCache]; exact hrc, ⟨rg.order g.wf (edge_live he) hl
    (by rw [hit]; exact g.wf.h_le), elm', by rw [u2.root]; exact root, by rw [u3, hlf]⟩, hlive, fr, ?_, ?_, hit⟩
  · rw [t'p]; simp; omega
  · exact ⟨d, he, by rw [kids_chs, c', if_neg (Ne.symm hxp), ← kids_chs, hk]⟩

/-- The cases of `handle_lack_single_layer` at the node `x` below `p`. -/
inductive LackPost {B : Trait E C D} (A : Law B) (s : Tree E C) (lvl : Nat → Nat) (h p x : Nat)
    (X : Idx → Prop) (Q : Prop) : Option Nat → Tree E C → Prop
  /-- `x` was empty and is removed -/
  | empty {s' : Tree E C} (le : LawE A) (hx : chs s x = []) (d : DelPost A s s' lvl h p x X Q) :
      LackPost A s lvl h p x X Q (some p) s'
  /-- `x` has no sibling -/
  | alone (hx : chs s x ≠ []) (hp : (chs s p).length = 1) : LackPost A s lvl h p x X Q (some p) s
  /-- `x` is rebalanced with a sibling -/
  | pair {s' : Tree E C} {a b : Nat} (hx : chs s x ≠ []) (hab : x = a ∨ x = b) (ha : .internal a ∈ kids s p) (hb : .internal b ∈ kids s p)
      (hne : a ≠ b) (d : PairPost A s s' lvl h p a b X Q) :
      LackPost A s lvl h p x X Q (if (chs s' p).length < 6 then some p else none) s'

theorem chs_pair {i : Nat} {ca cb : Child C} (h1 : (chs s p)[i]? = some ca) (h2 : (chs s p)[i + 1]? = some cb) :
    chs s p = (chs s p).take i ++ [ca, cb] ++ (chs s p).drop (i + 2) := by
  have l1 := (List.getElem?_eq_some_iff.mp h1)
  have l2 := (List.getElem?_eq_some_iff.mp h2)
  obtain ⟨b1, e1⟩ := l1
  obtain ⟨b2, e2⟩ := l2
  rw [← e1, ← e2]
  simp

/-- the branches of `handle_lack_single_layer` for a node with a sibling -/
def lackPair (B : Trait E C D) (s : Tree E C) (x p ai bi aArr bArr : Nat) (chA chB : Child C) (a b : Node C) :
    M (Option Nat × Tree E C) :=
  if MAXC ≤ a.children.length + b.children.length then lackBorrow B s p ai bi aArr bArr chA chB a b
  else if Idx.internal ai = .internal x then
    lackMerge B ((s.setIn ai { a with children := a.children ++ b.children }).setIn bi { b with children := [] }) p
      aArr bi bArr chA { a with children := a.children ++ b.children } (reparentEntries b.children ai a.children.length)
  else
    lackMerge B ((s.setIn ai { a with children := [] }).setIn bi { b with children := a.children ++ b.children }) p
      bArr ai aArr chB { b with children := a.children ++ b.children }
      (reparentEntries a.children bi 0 ++ reparentEntries b.children bi a.children.length)

theorem lackPair_spec {X : Idx → Prop} {Q : Prop} (g : GoodX A s lvl h X Q) (hX : ∀ a ∈ kids s p, ¬ X a) 
    (hl : 2 ≤ lvl p) {x a b i : Nat} {ca cb : Child C} {Na Nb : Node C}
    (h1 : (chs s p)[i]? = some ca) (h2 : (chs s p)[i + 1]? = some cb)
    (hca : ca.arena = .internal a) (hcb : cb.arena = .internal b)
    (ha : s.inn.get a = some Na) (hb : s.inn.get b = some Nb)
    (hlen : ∀ y, .internal y ∈ kids s p → (chs s y).length ≤ 11)
    (hne : ∀ y, .internal y ∈ kids s p → chs s y ≠ [] ∨ LawE A) (hx : chs s x ≠ []) (hab : x = a ∨ x = b) :
    ∃ s', lackPair B s x p a b i (i + 1) ca cb Na Nb =
        .ok (if (chs s' p).length < 6 then some p else none, s') ∧ PairPost A s s' lvl h p a b X Q := by
  have hea : Edge s p i (.internal a) := edge_chs.mpr ⟨ca, h1, hca⟩
  have heb : Edge s p (i + 1) (.internal b) := edge_chs.mpr ⟨cb, h2, hcb⟩
  have hne' : a ≠ b := by rintro rfl; have := (g.wf.kid_inj hea heb).2; omega
  have hk := chs_pair h1 h2
  have hi : ((chs s p).take i).length = i := by
    have := (List.getElem?_eq_some_iff.mp h1).1
    rw [List.length_take]; omega
  have la := hlen a (mem_kids.mpr ⟨_, hea⟩)
  have lb := hlen b (mem_kids.mpr ⟨_, heb⟩)
  rw [chs_of ha] at la
  rw [chs_of hb] at lb
  have nd : ((Na.children ++ Nb.children).map Child.arena).Nodup := by
    rw [List.map_append, List.nodup_append, ← kids_of ha, ← kids_of hb]
    refine ⟨g.wf.kids_nodup a, g.wf.kids_nodup b, ?_⟩
    rintro y hy _ hz rfl
    obtain ⟨j, hj⟩ := mem_kids.mp hy
    obtain ⟨k, hk⟩ := mem_kids.mp hz
    exact hne' (g.wf.kid_inj hj hk).1
  have nd' := nd
  rw [List.map_append, List.nodup_append] at nd'
  obtain ⟨nda, ndb, dis⟩ := nd'
  have amem : ∀ {j : Nat} {c : Child C} {l : List (Child C)}, l[j]? = some c → c.arena ∈ l.map Child.arena :=
    fun hc => List.mem_map_of_mem (List.mem_of_getElem? hc)
  have hcc : Na.children ++ Nb.children ≠ [] := by
    intro e
    simp only [List.append_eq_nil_iff] at e
    rcases hab with rfl | rfl
    · rw [chs_of ha] at hx; exact hx e.1
    · rw [chs_of hb] at hx; exact hx e.2
  unfold lackPair
  split
  · next hge => exact lackBorrow_spec g hX hl hk hi hca hcb ha hb hne hge la lb nd
  · next hlt =>
    have hsum : (Na.children ++ Nb.children).length ≤ 11 := by
      simp only [MAXC] at hlt
      rw [List.length_append]; omega
    split
    · next hax =>
      refine lackMerge_spec (k := a) g hX hl hk hi hca hcb ha hb hne hcc hsum
        (Or.inl ⟨rfl, rfl, rfl, rfl, rfl, rfl, rfl⟩) rfl ?_ ?_
      · intro j c hc
        rw [List.getElem?_append] at hc
        split at hc
        · next hj =>
          right
          rw [chs_of ha]
          refine ⟨look_entries_none ?_, hc⟩
          intro hm
          exact dis _ (amem hc) _ hm rfl
        · next hj =>
          left
          rw [look_entries_some ndb hc]
          simp only [Option.some.injEq, Prod.mk.injEq, true_and]; omega
      · intro e he
        obtain ⟨c, h1, h2⟩ := mem_entries he
        rw [← h2]; exact Or.inr (List.mem_map_of_mem h1)
    · next hax =>
      refine lackMerge_spec (k := b) g hX hl hk hi hca hcb ha hb hne hcc hsum
        (Or.inr ⟨rfl, rfl, rfl, rfl, rfl, rfl, rfl⟩) rfl ?_ ?_
      · intro j c hc
        left
        rw [List.getElem?_append] at hc
        split at hc
        · next hj =>
          rw [look_append, look_entries_none, look_entries_some nda hc]
          · simp
          · intro hm; exact dis _ (amem hc) _ hm rfl
        · next hj =>
          rw [look_append, look_entries_some ndb hc]
          simp only [Option.some_or, Option.some.injEq, Prod.mk.injEq, true_and]; omega
      · intro e he
        rw [List.mem_append] at he
        rcases he with he | he
        · obtain ⟨c, h1, h2⟩ := mem_entries he
          rw [← h2]; exact Or.inl (List.mem_map_of_mem h1)
        · obtain ⟨c, h1, h2⟩ := mem_entries he
          rw [← h2]; exact Or.inr (List.mem_map_of_mem h1)

/-- `handle_lack_single_layer` at a node other than the root. -/
theorem lackSingle_spec {X : Idx → Prop} {Q : Prop} (g : GoodX A s lvl h X Q) (hX : ∀ a ∈ kids s p, ¬ X a) 
    {x k : Nat} (hx : lnk s x = some (some p, k))
    (hlen : ∀ y, .internal y ∈ kids s p → (chs s y).length ≤ 11)
    (hne : ∀ y, .internal y ∈ kids s p → chs s y ≠ [] ∨ LawE A) :
    ∃ r s', handleLackSingle B s x = .ok (r, s') ∧ LackPost A s lvl h p x X Q r s' := by
  obtain ⟨he, hxr⟩ := g.wf.lnk_edge hx
  have hpl := edge_live he
  have hl : 2 ≤ lvl p := by
    have := (g.wf.kin he).1
    have := (g.wf.lvl_pos' (kids_live_in g.wf (mem_kids.mpr ⟨_, he⟩))).1
    omega
  have hN := get_of_lnk hx
  obtain ⟨P, hP⟩ := lnk_isSome.mp hpl
  obtain ⟨cx, hcx, hcxa⟩ := edge_chs.mp he
  have hcx' := hcx
  rw [chs_of hP] at hcx'
  have hkd := (List.getElem?_eq_some_iff.mp hcx).1
  have hhere : assertM (decide (cx.arena = Idx.internal x)) = .ok () := assertM_true (decide_eq_true hcxa)
  by_cases hx0 : chs s x = []
  · have le : LawE A := (hne x (mem_kids.mpr ⟨_, he⟩)).resolve_left (fun h => h hx0)
    have l1 : ∀ y, lnk (s.setIn p { P with children := P.children.eraseIdx k }) y = lnk s y := by
      intro y; rw [lnk_setIn s hpl]; split
      · next e => subst e; exact (lnk_of hP).symm
      · rfl
    obtain ⟨t', h1, h2⟩ := del_empty g hX le he hx0 (t := s.setIn p { P with children := P.children.eraseIdx k }) l1
      (by rw [chs_setIn s hpl, if_pos rfl, chs_of hP])
      (by intro y hy; rw [chs_setIn s hpl, if_neg hy]) rfl rfl (by simp) rfl
    refine ⟨some p, t', ?_, .empty le hx0 h2⟩
    unfold handleLackSingle
    rw [if_neg (Ne.symm hxr)]
    simp only [getIn_ok hN, bind_ok, unwrap_some, getIn_ok hP, vget_ok hcx', hhere, hx0, List.length_nil, if_true]
    simp only [vremove, hcx', bind_ok]
    simp only [freeIn] at h1
    rw [h1]
    rfl
  · have hlen0 : (chs s x).length ≠ 0 := fun e => hx0 (List.length_eq_zero_iff.mp e)
    have hstep : handleLackSingle B s x = (do
        match ← pairNeighbor s x with
        | none => pure (some p, s)
        | some ((aI, aArr), (bI, bArr)) => do
          let chA ← vget P.children aArr
          let chB ← vget P.children bArr
          let ai ← aI.unwrapInternal
          let bi ← bI.unwrapInternal
          assertM (decide (ai ≠ bi))
          let a ← s.getIn ai
          let b ← s.getIn bi
          lackPair B s x p ai bi aArr bArr chA chB a b : M (Option Nat × Tree E C)) := by
      unfold handleLackSingle
      rw [if_neg (Ne.symm hxr)]
      simp only [getIn_ok hN, bind_ok, unwrap_some, getIn_ok hP, vget_ok hcx', hhere, if_neg hlen0]
      cases pairNeighbor s x with
      | error e => rfl
      | ok v =>
        simp only [bind_ok]
        match v with
        | none => rfl
        | some ((.leaf _, aArr), (bI, bArr)) =>
          simp only [Idx.unwrapInternal, bind_err]
        | some ((.internal ai, aArr), (.leaf _, bArr)) =>
          simp only [Idx.unwrapInternal, bind_err, bind_ok]
        | some ((.internal ai, aArr), (.internal bi, bArr)) =>
          simp only [Idx.unwrapInternal, bind_ok]
          rfl
    rw [hstep]
    simp only [pairNeighbor, getIn_ok hN, bind_ok, unwrap_some, getIn_ok hP]
    have fin : ∀ (i a b : Nat) (ca cb : Child C), (chs s p)[i]? = some ca → (chs s p)[i + 1]? = some cb →
        ca.arena = .internal a → cb.arena = .internal b → (x = a ∨ x = b) →
        ∃ r s', (do
          let chA ← vget P.children i
          let chB ← vget P.children (i + 1)
          let ai ← (Idx.internal a).unwrapInternal
          let bi ← (Idx.internal b).unwrapInternal
          assertM (decide (ai ≠ bi))
          let a ← s.getIn ai
          let b ← s.getIn bi
          lackPair B s x p ai bi i (i + 1) chA chB a b : M (Option Nat × Tree E C)) = .ok (r, s') ∧ LackPost A s lvl h p x X Q r s' := by
      intro i a b ca cb h1 h2 hca hcb hab
      have hea : Edge s p i (.internal a) := edge_chs.mpr ⟨ca, h1, hca⟩
      have heb : Edge s p (i + 1) (.internal b) := edge_chs.mpr ⟨cb, h2, hcb⟩
      have hne' : a ≠ b := by rintro rfl; have := (g.wf.kid_inj hea heb).2; omega
      obtain ⟨Na, hNa⟩ := lnk_isSome.mp (kids_live_in g.wf (mem_kids.mpr ⟨_, hea⟩))
      obtain ⟨Nb, hNb⟩ := lnk_isSome.mp (kids_live_in g.wf (mem_kids.mpr ⟨_, heb⟩))
      obtain ⟨s', e1, e2⟩ := lackPair_spec (x := x) g hX hl h1 h2 hca hcb hNa hNb hlen hne hx0 hab
      rw [chs_of hP] at h1 h2
      refine ⟨_, s', ?_, .pair hx0 hab (mem_kids.mpr ⟨_, hea⟩) (mem_kids.mpr ⟨_, heb⟩) hne' e2⟩
      simp only [vget, h1, h2, unwrap_some, bind_ok, Idx.unwrapInternal, assertM_true (decide_eq_true hne'), getIn_ok hNa, getIn_ok hNb]
      exact e1
    by_cases hk0 : k = 0
    · subst hk0
      rw [if_pos rfl]
      cases h1 : P.children[1]? with
      | none =>
        refine ⟨some p, s, rfl, .alone hx0 ?_⟩
        rw [chs_of hP] at hkd ⊢
        have := List.getElem?_eq_none_iff.mp h1
        omega
      | some cb =>
        obtain ⟨b, hb⟩ := kids_internal g.wf hl cb.arena (by
          rw [kids_of hP]; exact List.mem_map_of_mem (List.mem_of_getElem? h1))
        obtain ⟨r, s', e1, e2⟩ := fin 0 x b cx cb hcx (by rw [chs_of hP]; exact h1) hcxa hb (Or.inl rfl)
        refine ⟨r, s', ?_, e2⟩
        simp only [Option.map_some, pure_ok, bind_ok, hb]
        exact e1
    · rw [if_neg hk0]
      have hk1 : k - 1 < P.children.length := by rw [chs_of hP] at hkd; omega
      obtain ⟨ca, h1⟩ : ∃ ca, P.children[k - 1]? = some ca := ⟨_, List.getElem?_eq_getElem hk1⟩
      obtain ⟨a, ha⟩ := kids_internal g.wf hl ca.arena (by
          rw [kids_of hP]; exact List.mem_map_of_mem (List.mem_of_getElem? h1))
      obtain ⟨j, rfl⟩ : ∃ j, k = j + 1 := ⟨k - 1, by omega⟩
      obtain ⟨r, s', e1, e2⟩ := fin j a x ca cx (by rw [chs_of hP]; exact h1) hcx ha hcxa (Or.inr rfl)
      refine ⟨r, s', ?_, e2⟩
      simp only [h1, Option.map_some, pure_ok, bind_ok, ha]
      exact e1

end
end GB

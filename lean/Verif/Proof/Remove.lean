import Verif.Proof.Reduce
import Verif.Proof.LackSpine

/-!
# `handle_lack_recursively`, `remove_internal_node`, `remove_leaf`
-/

namespace GB
variable {E C D : Type}
open Tree

section
variable {B : Trait E C D} {A : Law B} {s : Tree E C} {lvl : Nat → Nat} {h : Nat}

theorem root_len {m : Fill} {P : Nat → Prop} (g : Good A s lvl h) (hm1 : 1 ≤ m.lo) (sz : SzX m s h P) {x : Nat}
    (hx : lnk s x ≠ none) (hP : ∀ y, P y → y = x) {p k : Nat} (he : Edge s p k (.internal x)) :
    ∀ y, .internal y ∈ kids s p → y ≠ x → (chs s y).length ≤ 11 ∧ m.le s y (chs s y).length := by
  intro y hy hne
  have hyl := kids_live_in g.wf hy
  obtain ⟨j, hj⟩ := mem_kids.mp hy
  have hyr : y ≠ s.root := by rintro rfl; exact g.wf.root_not_kid hj
  obtain ⟨h1, h2, -⟩ := sz y hyl (fun hp => hne (hP y hp))
  exact ⟨h1, h2 hyr⟩

/-- `handle_lack_recursively`. -/
theorem handleLackF_spec {m : Fill} (hm1 : 1 ≤ m.lo) (hm6 : m.lo + m.d ≤ 6) : ∀ (n : Nat) (s : Tree E C) (lvl : Nat → Nat) (h x : Nat),
    Good A s lvl h → lnk s x ≠ none → SzX m s h (fun y => y = x) → (chs s x).length ≤ 11 →
    (chs s x ≠ [] ∨ LawE A) → h - lvl x < n →
    ∃ s' lvl' h', handleLackF B n s x = .ok s' ∧ Good A s' lvl' h' ∧ Sz m s' h' ∧ h' ≤ h ∧ Same s s' := by
  intro n
  induction n with
  | zero => intro s lvl h x _ _ _ _ _ hn; omega
  | succ n ih =>
    intro s lvl h x g hx sz hl11 hne hn
    by_cases hxr : x = s.root
    · subst hxr
      obtain ⟨s', lvl', h', e1, e2, e3, e4, e5, e6, e7⟩ := tryReduce_spec hm1 g sz hl11
      refine ⟨s', lvl', h', ?_, e2, e3, e4, e6⟩
      simp only [handleLackF, handleLackSingle, if_true, e1, bind_ok, pure_ok]
    · obtain ⟨p, k, he⟩ := g.wf.par_in' hx hxr
      have hlk := (g.wf.kin he).2
      have hlp := (g.wf.kin he).1
      have hpl := edge_live he
      have hph := (g.wf.lvl_pos' hpl).2
      have hpx : p ≠ x := Ne.symm (kid_ne_self g.wf he)
      obtain ⟨p11, pm, pr⟩ := sz p hpl hpx
      have hx1 := (g.wf.lvl_pos' hx).1
      obtain ⟨r, s', e1, post⟩ := lackSingle_spec g.toX (fun _ _ h => h) hlk
        (by
          intro y hy
          by_cases hyx : y = x
          · subst hyx; exact hl11
          · exact (root_len g hm1 sz hx (fun _ h => h) he y hy hyx).1)
        (by
          intro y hy
          by_cases hyx : y = x
          · subst hyx; exact hne
          · left
            have := (root_len g hm1 sz hx (fun _ h => h) he y hy hyx).2
            intro e; rw [e] at this; have := this.1; simp at this; omega)
      simp only [handleLackF, e1, bind_ok]
      cases post with
      | empty le hx0 d =>
        obtain ⟨s2, lvl2, h2, f1, f2, f3, f4, f5⟩ := ih s' lvl h p d.good.good ((d.live p).mpr ⟨hpl, hpx⟩)
          (by
            intro y hy hyp
            obtain ⟨hy1, hy2⟩ := (d.live y).mp hy
            rw [d.frame y hyp, d.same.root]
            obtain ⟨k1, k2, k3⟩ := sz y hy1 hy2
            exact ⟨k1, fun hr => (k2 hr).keep (fun hh => d.ls hx0 hh hy2) (Nat.le_refl _), k3⟩)
          (by have := d.plen; omega) (Or.inr le) (by omega)
        exact ⟨s2, lvl2, h2, f1, f2, f3, f4, d.same.trans f5⟩
      | alone hx0 hp1 =>
        have hpr : p ≠ s.root := by
          intro e
          have := pr e (by omega)
          omega
        have hm : m.le s p 1 := by have := pm hpr; rwa [hp1] at this
        have hlsx : LSp s p → LSp s x := by
          intro hh
          refine hh.step ?_
          rw [List.head?_eq_getElem?]
          have hk0 : k = 0 := by
            have := (List.getElem?_eq_some_iff.mp he).1
            rw [kids_chs, List.length_map] at this
            omega
          rw [← hk0]; exact he
        obtain ⟨s2, lvl2, h2, f1, f2, f3, f4, f5⟩ := ih s lvl h p g hpl
          (by
            intro y hy hyp
            by_cases hyx : y = x
            · subst hyx
              refine ⟨hl11, fun _ => ?_, fun e => absurd e hxr⟩
              have : (chs s y).length ≠ 0 := fun e => hx0 (List.length_eq_zero_iff.mp e)
              have h1 := hm.1
              exact ⟨by omega, fun hn => by have := hm.2 (fun hh => hn (hlsx hh)); omega⟩
            · exact sz y hy hyx)
          p11 (Or.inl (by intro e; rw [e] at hp1; simp at hp1)) (by omega)
        exact ⟨s2, lvl2, h2, f1, f2, f3, f4, f5⟩
      | @pair _ a b hx0 hab ha hb hne2 d =>
        have hpab : p ≠ a ∧ p ≠ b := by
          constructor
          · rintro rfl; obtain ⟨j, hj⟩ := mem_kids.mp ha; exact kid_ne_self g.wf hj rfl
          · rintro rfl; obtain ⟨j, hj⟩ := mem_kids.mp hb; exact kid_ne_self g.wf hj rfl
        have hr : ∀ y, .internal y ∈ kids s p → y ≠ s.root := by
          intro y hy; rintro rfl; obtain ⟨j, hj⟩ := mem_kids.mp hy; exact g.wf.root_not_kid hj
        have p2 : 2 ≤ (chs s p).length := by
          have h1 := g.wf.kids_nodup p
          obtain ⟨i, hi⟩ := mem_kids.mp ha
          obtain ⟨j, hj⟩ := mem_kids.mp hb
          have hij : i ≠ j := by
            rintro rfl
            rw [Edge, hi] at hj
            simp only [Option.some.injEq, Idx.internal.injEq] at hj
            exact hne2 hj
          have b1 := (List.getElem?_eq_some_iff.mp hi).1
          have b2 := (List.getElem?_eq_some_iff.mp hj).1
          rw [kids_chs, List.length_map] at b1 b2
          omega
        have szp : SzX m s' h (fun y => y = p) := by
          intro y hy hyp
          by_cases hyab : y = a ∨ y = b
          · obtain ⟨h1, h2⟩ := d.pair y hy hyab
            have hyr : y ≠ s'.root := by
              rw [d.same.root]
              rcases hyab with rfl | rfl
              · exact hr _ ha
              · exact hr _ hb
            refine ⟨h1, fun _ => ?_, fun e => absurd e hyr⟩
            rcases h2 with h2 | h2
            · exact .of (by omega)
            · rcases hab with rfl | rfl
              · have := (root_len g hm1 sz hx (fun _ h => h) he b hb (Ne.symm hne2)).2.2 (d.not_lsp g.wf)
                exact .of (by omega)
              · have := (root_len g hm1 sz hx (fun _ h => h) he a ha hne2).2
                have h3 := this.1
                refine ⟨by omega, fun hn => ?_⟩
                by_cases hla : LSp s a
                · rcases d.lsm g.wf hla hyab hy with h4 | h4
                  · omega
                  · exact absurd h4 hn
                · have := this.2 hla
                  omega
          · have h1 : y ≠ a := fun e => hyab (Or.inl e)
            have h2 : y ≠ b := fun e => hyab (Or.inr e)
            rw [d.frame y hyp h1 h2, d.same.root]
            obtain ⟨k1, k2, k3⟩ := sz y (d.live y hy) (by rcases hab with rfl | rfl <;> assumption)
            exact ⟨k1, fun hr => (k2 hr).keep (fun hh => d.ls g.wf hh hy) (Nat.le_refl _), k3⟩
        by_cases hlack : (chs s' p).length < 6
        · rw [if_pos hlack]
          obtain ⟨s2, lvl2, h2, f1, f2, f3, f4, f5⟩ := ih s' lvl h p d.good.good (d.keep p hpl hpab.1 hpab.2)
            szp (by have := d.plen; omega)
            (Or.inl (by intro e; have := d.plen; rw [e] at this; simp at this; omega)) (by omega)
          exact ⟨s2, lvl2, h2, f1, f2, f3, f4, d.same.trans f5⟩
        · rw [if_neg hlack]
          refine ⟨s', lvl, h, rfl, d.good.good, ?_, Nat.le_refl _, d.same⟩
          intro y hy _
          by_cases hyp : y = p
          · subst hyp
            have := d.plen
            exact ⟨by omega, fun _ => .of (by omega), fun _ _ => by omega⟩
          · exact szp y hy hyp

theorem handleLack_spec {m : Fill} (hm1 : 1 ≤ m.lo) (hm6 : m.lo + m.d ≤ 6) {x : Nat} (g : Good A s lvl h) (hx : lnk s x ≠ none)
    (sz : SzX m s h (fun y => y = x)) (hl11 : (chs s x).length ≤ 11) (hne : chs s x ≠ [] ∨ LawE A) :
    ∃ s' lvl' h', handleLack B s x = .ok s' ∧ Good A s' lvl' h' ∧ Sz m s' h' ∧ h' ≤ h ∧ Same s s' :=
  handleLackF_spec hm1 hm6 s.fuel s lvl h x g hx sz hl11 hne (by
    unfold fuel; have := g.wf.h_le; omega)

/-- `remove_internal_node` at an empty node. -/
theorem removeInternalF_spec {m : Fill} (hm1 : 1 ≤ m.lo) (hm6 : m.lo + m.d ≤ 6) (le : LawE A) :
    ∀ (n : Nat) (s : Tree E C) (lvl : Nat → Nat) (h x : Nat),
    Good A s lvl h → lnk s x ≠ none → SzX m s h (fun y => y = x) → chs s x = [] → h - lvl x < n →
    ∃ s' lvl' h', removeInternalF B n s x = .ok s' ∧ Good A s' lvl' h' ∧ Sz m s' h' ∧ h' ≤ h ∧ Same s s' := by
  intro n
  induction n with
  | zero => intro s lvl h x _ _ _ _ hn; omega
  | succ n ih =>
    intro s lvl h x g hx sz hx0 hn
    by_cases hxr : x = s.root
    · refine ⟨s, _, 1, ?_, g.reset (by rw [← hxr]; exact hx0), ?_, g.wf.h_pos, Same.refl s⟩
      · simp only [removeInternalF, if_pos hxr]
      · intro y hy _
        by_cases hyx : y = x
        · subst hyx
          exact ⟨by rw [hx0]; simp, fun h => absurd hxr h, fun _ h => by omega⟩
        · obtain ⟨h1, h2, h3⟩ := sz y hy hyx
          exact ⟨h1, h2, fun _ h => by omega⟩
    · obtain ⟨p, k, he⟩ := g.wf.par_in' hx hxr
      have hlk := (g.wf.kin he).2
      have hlp := (g.wf.kin he).1
      have hpl := edge_live he
      have hph := (g.wf.lvl_pos' hpl).2
      have hpx : p ≠ x := Ne.symm (kid_ne_self g.wf he)
      obtain ⟨p11, pm, pr⟩ := sz p hpl hpx
      have hX := get_of_lnk hlk
      obtain ⟨P, hP⟩ := lnk_isSome.mp hpl
      obtain ⟨cx, hcx, -⟩ := edge_chs.mp he
      rw [chs_of hP] at hcx
      have l1 : ∀ y, lnk (s.setIn p { P with children := P.children.eraseIdx k }) y = lnk s y := by
        intro y; rw [lnk_setIn s hpl]; split
        · next e => subst e; exact (lnk_of hP).symm
        · rfl
      obtain ⟨t', h1, d⟩ := del_empty g.toX (fun _ _ h => h) le he hx0 (t := s.setIn p { P with children := P.children.eraseIdx k }) l1
        (by rw [chs_setIn s hpl, if_pos rfl, chs_of hP])
        (by intro y hy; rw [chs_setIn s hpl, if_neg hy]) rfl rfl (by simp) rfl
      have szp : SzX m t' h (fun y => y = p) := by
        intro y hy hyp
        obtain ⟨hy1, hy2⟩ := (d.live y).mp hy
        rw [d.frame y hyp, d.same.root]
        obtain ⟨k1, k2, k3⟩ := sz y hy1 hy2
        exact ⟨k1, fun hr => (k2 hr).keep (fun hh => d.ls hx0 hh hy2) (Nat.le_refl _), k3⟩
      have hlen : (chs t' p).length = (P.children.eraseIdx k).length := by
        have h2 := d.plen
        have h3 := (List.getElem?_eq_some_iff.mp hcx).1
        rw [chs_of hP] at h2
        rw [List.length_eraseIdx, if_pos h3]
        omega
      have hstep : removeInternalF B (n + 1) s x =
          if (chs t' p).length = 0 then removeInternalF B n t' p
          else if (chs t' p).length < 6 then handleLack B t' p else .ok t' := by
        have hgp : ({ s with inn := s.inn.remove x } : Tree E C).getIn p = .ok P := by
          apply getIn_ok
          show (s.inn.remove x).get p = some P
          rw [Arena.get_remove, if_neg hpx]
          exact hP
        simp only [removeInternalF, if_neg hxr, getIn_ok hX, bind_ok, unwrap_some, hgp, vremove, hcx]
        have hcomm : ({ s with inn := s.inn.remove x } : Tree E C).setIn p { P with children := P.children.eraseIdx k } =
            freeIn (s.setIn p { P with children := P.children.eraseIdx k }) x := by
          simp only [freeIn, setIn, Arena.set, Arena.remove]
          rw [List.set_comm _ _ (Ne.symm hpx)]
        rw [hcomm, h1]
        simp only [bind_ok, Node.isEmpty, Node.isLack, MAXC, pure_ok]
        rw [hlen]
        by_cases hz : P.children.eraseIdx k = []
        · simp [hz]
        · have : (P.children.eraseIdx k).length ≠ 0 := fun e => hz (List.length_eq_zero_iff.mp e)
          rw [if_neg this]
          by_cases h6 : (P.children.eraseIdx k).length < 6 <;> simp [hz, h6]
      rw [hstep]
      have hpl' : lnk t' p ≠ none := (d.live p).mpr ⟨hpl, hpx⟩
      split
      · next hz =>
        obtain ⟨s2, lvl2, h2, f1, f2, f3, f4, f5⟩ := ih t' lvl h p d.good.good hpl' szp
          (List.length_eq_zero_iff.mp hz) (by omega)
        exact ⟨s2, lvl2, h2, f1, f2, f3, f4, d.same.trans f5⟩
      · split
        · obtain ⟨s2, lvl2, h2, f1, f2, f3, f4, f5⟩ := handleLack_spec hm1 hm6 d.good.good hpl' szp
            (by have := d.plen; omega) (Or.inr le)
          exact ⟨s2, lvl2, h2, f1, f2, f3, f4, d.same.trans f5⟩
        · next hz hn6 =>
          refine ⟨t', lvl, h, rfl, d.good.good, ?_, Nat.le_refl _, d.same⟩
          intro y hy _
          by_cases hyp : y = p
          · subst hyp
            have := d.plen
            exact ⟨by omega, fun _ => .of (by omega), fun _ _ => by omega⟩
          · exact szp y hy hyp

/-- the common tail of the operations that remove a leaf: cleaning up at its former parent -/
theorem remove_tail {m : Fill} (hm1 : 1 ≤ m.lo) (hm6 : m.lo + m.d ≤ 6) {p : Nat} (g : Good A s lvl h) (hp : lnk s p ≠ none)
    (sz : SzX m s h (fun y => y = p)) (hl11 : (chs s p).length ≤ 11) (hne : chs s p ≠ [] ∨ p = s.root ∨ LawE A) :
    ∃ s' lvl' h', (if (chs s p).length = 0 then removeInternalF B s.fuel s p
        else if (chs s p).length < 6 then handleLack B s p else .ok s) = .ok s' ∧
      Good A s' lvl' h' ∧ Sz m s' h' ∧ h' ≤ h ∧ Same s s' := by
  split
  · next hz =>
    have hz' := List.length_eq_zero_iff.mp hz
    by_cases hpr : p = s.root
    · refine ⟨s, _, 1, ?_, g.reset (by rw [← hpr]; exact hz'), ?_, g.wf.h_pos, Same.refl s⟩
      · unfold fuel
        simp only [removeInternalF, if_pos hpr]
      · intro y hy _
        by_cases hyx : y = p
        · subst hyx
          exact ⟨hl11, fun h => absurd hpr h, fun _ h => by omega⟩
        · obtain ⟨h1, h2, h3⟩ := sz y hy hyx
          exact ⟨h1, h2, fun _ h => by omega⟩
    · have le : LawE A := by
        rcases hne with h1 | h1 | h1
        · exact absurd hz' h1
        · exact absurd h1 hpr
        · exact h1
      exact removeInternalF_spec hm1 hm6 le _ s lvl h p g hp sz hz' (by
        unfold fuel; have := g.wf.h_le; omega)
  · next hz =>
    split
    · exact handleLack_spec hm1 hm6 g hp sz hl11 (Or.inl (by intro e; rw [e] at hz; simp at hz))
    · refine ⟨s, lvl, h, rfl, g, ?_, Nat.le_refl _, Same.refl s⟩
      intro y hy _
      by_cases hyx : y = p
      · subst hyx
        exact ⟨hl11, fun _ => .of (by omega), fun _ _ => by omega⟩
      · exact sz y hy hyx

/-- removal of a leaf from the arena -/
def freeLf (s : Tree E C) (l : Nat) : Tree E C := { s with lf := s.lf.remove l }

theorem lpar_freeLf (s : Tree E C) (l y : Nat) : lpar (freeLf s l) y = if y = l then none else lpar s y := by
  simp only [lpar, freeLf, Arena.get_remove]
  split <;> simp

theorem elm_freeLf (s : Tree E C) (l y : Nat) : elm (freeLf s l) y = if y = l then none else elm s y := by
  simp only [elm, freeLf, Arena.get_remove]
  split <;> simp

/-- state after taking the `i`-th child, the leaf `l`, out of `p` -/
def unlinkLeaf (s : Tree E C) (p i l : Nat) (N : Node C) : Tree E C :=
  freeLf (s.setIn p { N with children := N.children.eraseIdx i }) l

/-- unlinking a leaf and repairing the caches -/
theorem unlink_spec (g : Good A s lvl h) {p i l : Nat} {N : Node C} (hN : s.inn.get p = some N)
    (he : Edge s p i (.leaf l)) (hne : (chs s p).length ≠ 1 ∨ p = s.root ∨ LawE A) :
    ∃ s2, recursiveUpdateCache B (unlinkLeaf s p i l N) (.internal p) B.useDiff none = .ok s2 ∧
      Good A s2 lvl h ∧ s2.root = s.root ∧ s2.lf.items.length = s.lf.items.length ∧
      (∀ k, elm s2 k = if k = l then none else elm s k) ∧
      (∀ y, lnk s2 y ≠ none ↔ lnk s y ≠ none) ∧ (∀ y, LSp s y → LSp s2 y) ∧
      (∀ y, y ≠ p → (chs s2 y).length = (chs s y).length) ∧ (chs s2 p).length + 1 = (chs s p).length ∧
      ∃ u v, order s = u ++ l :: v ∧ order s2 = u ++ v := by
  have hpl : lnk s p ≠ none := lnk_isSome.mpr ⟨N, hN⟩
  have hl : lvl p = 1 := (g.wf.klf he).1
  have hlp : lpar s l = some p := (g.wf.klf he).2
  have hi : i < (chs s p).length := by
    have := (List.getElem?_eq_some_iff.mp he).1
    rw [kids_chs, List.length_map] at this
    exact this
  generalize ht : unlinkLeaf s p i l N = t
  have tl : ∀ y, lnk t y = lnk s y := by
    intro y
    rw [← ht]
    show lnk (s.setIn p _) y = _
    rw [lnk_setIn s hpl]
    split
    · next e => subst e; exact (lnk_of hN).symm
    · rfl
  have tc : ∀ y, chs t y = if y = p then (chs s p).eraseIdx i else chs s y := by
    intro y
    rw [← ht]
    show chs (s.setIn p _) y = _
    rw [chs_setIn s hpl, chs_of hN]
  have tpar : ∀ k, lpar t k = if k = l then none else lpar s k := by
    intro k; rw [← ht, unlinkLeaf, lpar_freeLf, lpar_setIn]
  have telm : ∀ k, elm t k = if k = l then none else elm s k := by
    intro k; rw [← ht, unlinkLeaf, elm_freeLf, elm_setIn]
  have troot : t.root = s.root := by rw [← ht]; rfl
  have trc : t.rootCache = s.rootCache := by rw [← ht]; rfl
  have titems : t.inn.items.length = s.inn.items.length := by rw [← ht]; simp [unlinkLeaf, freeLf]
  have tlf : t.lf.items.length = s.lf.items.length := by rw [← ht]; simp [unlinkLeaf, freeLf, Arena.remove]
  have tcp : chs t p = (chs s p).eraseIdx i := by rw [tc, if_pos rfl]
  have tk : kids t p = (kids s p).take i ++ (kids s p).drop (i + 1) := by
    rw [kids_chs, tcp, kids_chs, List.eraseIdx_eq_take_drop_succ]; simp
  have r : LeafEdit s t p := leafEdit_del g.wf hl troot titems tl (fun y hy => by rw [tc, if_neg hy]) he tk
    (by rw [tpar, if_pos rfl]) (fun k hk => by rw [tpar, if_neg hk])
  have w' := r.wf g.wf hpl hl
  have hmem : ∀ c ∈ chs t p, c ∈ chs s p ∧ ∃ k, c.arena = .leaf k ∧ k ≠ l := by
    intro c hc
    rw [tcp] at hc
    have hcs := List.mem_of_mem_eraseIdx hc
    refine ⟨hcs, ?_⟩
    obtain ⟨j, hj⟩ := List.mem_iff_getElem?.mp hcs
    obtain ⟨k, hk⟩ := (g.wf.kid_leaf_iff (edge_chs.mpr ⟨c, hj, rfl⟩)).mp hl
    refine ⟨k, hk, ?_⟩
    rintro rfl
    have hm : Idx.leaf k ∈ kids t p := by
      rw [kids_chs, tcp, ← hk]; exact List.mem_map_of_mem hc
    obtain ⟨j2, hj2⟩ := mem_kids.mp hm
    have := (w'.klf hj2).2
    rw [tpar, if_pos rfl] at this
    cases this
  have ent : ∀ c ∈ chs t p, EntryOK A t c := by
    intro c hc
    obtain ⟨h1, k, h2, h3⟩ := hmem c hc
    have := g.cinv p c h1 (fun h => h)
    simp only [EntryOK, h2, telm, if_neg h3] at this ⊢
    exact this
  have cok' : COk A t := r.cok g.cok (fun c hc => g.cok p c (hmem c hc).1)
  have cinv' : CInv A t (fun a => a = .internal p) := by
    refine r.cinv g.wf (X := noX) (X' := fun a => a = .internal p) g.cinv (fun _ h => absurd h (fun h => h)) rfl ?_ ?_
    · intro k e _ hlv hk _
      rw [telm] at hk
      split at hk
      · cases hk
      · exact hk
    · intro c hc _; exact ent c hc
  have hlen : (chs t p).length + 1 = (chs s p).length := by
    rw [tcp, List.length_eraseIdx, if_pos hi]; omega
  obtain ⟨s2, e1, e2, e3, e4, e5, e6⟩ := recursiveUpdateCache_internal (x := p) w' cok' (by rw [tl]; exact hpl)
    (by
      rcases hne with h1 | h1 | h1
      · left; intro e; rw [e] at hlen; simp at hlen; omega
      · right; left; rw [troot]; exact h1
      · exact Or.inr (Or.inr h1))
    cinv' B.useDiff none (fun h => h) (fun d _ h => by cases h)
    (by
      intro _ _ hpr
      refine RootOK.congr (s := s) ?_ trc g.rok
      rw [troot, tc, if_neg]
      rw [troot] at hpr
      exact Ne.symm hpr)
  obtain ⟨a, b, o1, o2⟩ := r.order g.wf hpl hl
  refine ⟨s2, e1, ⟨e2.wf w', e6, e4, e5, ?_⟩, e2.root.trans troot, by rw [e3, tlf], ?_, ?_, ?_, ?_, ?_, ?_⟩
  · intro k e hk
    have : elm s2 k = elm t k := by simp [elm, e3]
    rw [this, telm] at hk
    split at hk
    · cases hk
    · exact g.okE k e hk
  · intro k
    have : elm s2 k = elm t k := by simp [elm, e3]
    rw [this, telm]
  · intro y; rw [e2.live, tl]
  · intro y hy; exact (hy.edit r g.wf hl).shape e2
  · intro y hy; rw [e2.len, tc, if_neg hy]
  · rw [e2.len, hlen]
  · refine ⟨a ++ ((kids s p).take i).map Idx.raw, ((kids s p).drop (i + 1)).map Idx.raw ++ b, ?_, ?_⟩
    · rw [o1, LeafEdit.leafIds]
      conv => lhs; rw [get_split he]
      simp [Idx.raw]
    · rw [e2.order, o2, LeafEdit.leafIds, tk]
      simp

theorem entries_del {s s2 : Tree E C} (w : WF s lvl h) {l : Nat} {e : E} {U V : List (Nat × E)}
    (hs : entries s = U ++ (l, e) :: V) {u v : List Nat} (h1 : order s = u ++ l :: v) (h2 : order s2 = u ++ v)
    (hel : ∀ k, elm s2 k = if k = l then none else elm s k) : entries s2 = U ++ V := by
  have hme : elm s l = some e := (entries_mem w).mp (by rw [hs]; simp)
  have hnd := order_nodup w
  rw [h1] at hnd
  have hu : l ∉ u := by
    intro hm
    rw [List.nodup_append] at hnd
    exact hnd.2.2 l hm l (by simp) rfl
  have hv : l ∉ v := by
    rw [List.nodup_append] at hnd
    exact (List.nodup_cons.mp hnd.2.1).1
  have e1 : entries s = entriesOf s u ++ (l, e) :: entriesOf s v := order_split h1 hme
  have nd := entries_nodup w
  have : entriesOf s u = U ∧ entriesOf s v = V := by
    rw [hs] at e1
    have hf := congrArg (List.map Prod.fst) e1
    rw [hs] at nd
    simp only [List.map_append, List.map_cons] at hf nd
    have h3 := nodup_append_cons_inj hf nd
    have hlen : U.length = (entriesOf s u).length := by
      have := congrArg List.length h3.1; simpa using this
    obtain ⟨h4, h5⟩ := List.append_inj e1 hlen
    simp only [List.cons.injEq, true_and] at h5
    exact ⟨h4.symm, h5.symm⟩
  rw [entries, h2, entriesOf_append, ← this.1, ← this.2]
  congr 1
  · apply entriesOf_congr
    intro k hk; rw [hel, if_neg (by rintro rfl; exact hu hk)]
  · apply entriesOf_congr
    intro k hk; rw [hel, if_neg (by rintro rfl; exact hv hk)]

/-- `remove_leaf` at a stored leaf. -/
theorem removeLeaf_spec {m : Fill} (hm1 : 1 ≤ m.lo) (hm6 : m.lo + m.d ≤ 6) (hm : 2 ≤ m.lo ∨ LawE A) (g : Good A s lvl h) (sz : Sz m s h)
    {l o : Nat} {e : E} {U V : List (Nat × E)} (hs : entries s = U ++ (l, e) :: V) :
    ∃ s' lvl' h', removeLeaf B s ⟨l, o⟩ = .ok (some e, s') ∧ Good A s' lvl' h' ∧ Sz m s' h' ∧ h' ≤ h ∧
      entries s' = U ++ V ∧ s'.root = s.root ∧ s'.lf.items.length = s.lf.items.length := by
  have hme : elm s l = some e := (entries_mem g.wf).mp (by rw [hs]; simp)
  have hll : lpar s l ≠ none := by rw [Ne, ← elm_none, hme]; simp
  obtain ⟨p, i, he⟩ := g.wf.par_lf' hll
  have hlp := (g.wf.klf he).2
  have hpl := edge_live he
  obtain ⟨N, hN⟩ := lnk_isSome.mp hpl
  obtain ⟨el, hL, hel⟩ := getLf_of hlp
  have hel' : el = e := by rw [elm_of hL] at hme; cases hme; rfl
  subst hel'
  have hpz := sz p hpl (fun h => h)
  obtain ⟨c, hc, hca⟩ := edge_chs.mp he
  have hslot := getLeafSlot_wf g.wf he
  rw [chs_of hN] at hslot hc
  obtain ⟨s2, e1, g2, r2, lf2, el2, live2, ls2, len2, lenp, u, v, o1, o2⟩ := unlink_spec (B := B) g hN he (by
    by_cases hpr : p = s.root
    · exact Or.inr (Or.inl hpr)
    · rcases hm with h2 | h2
      · left; have := (hpz.2.1 hpr).1; omega
      · exact Or.inr (Or.inr h2))
  have sz2 : SzX m s2 h (fun y => y = p) := by
    intro y hy hyp
    rw [len2 y hyp, r2]
    obtain ⟨k1, k2, k3⟩ := sz y ((live2 y).mp hy) (fun h => h)
    exact ⟨k1, fun hr => (k2 hr).keep (ls2 y) (Nat.le_refl _), k3⟩
  obtain ⟨s3, lvl3, h3, f1, f2, f3, f4, f5⟩ := remove_tail hm1 hm6 g2 ((live2 p).mpr hpl) sz2 (by have := hpz.1; omega) (by
    by_cases hpr : p = s.root
    · right; left; rw [r2]; exact hpr
    · rcases hm with h2 | h2
      · left; have := (hpz.2.1 hpr).1; intro e; rw [e] at lenp; simp at lenp; omega
      · exact Or.inr (Or.inr h2))
  refine ⟨s3, lvl3, h3, ?_, f2, f3, f4, ?_, f5.root.trans r2, f5.lfitems.trans lf2⟩
  · have hlen : (chs s2 p).length = (N.children.eraseIdx i).length := by
      have h3 := (List.getElem?_eq_some_iff.mp hc).1
      rw [chs_of hN] at lenp
      rw [List.length_eraseIdx, if_pos h3]
      omega
    rw [hlen] at f1
    have hg2 : (s.setIn p { N with children := N.children.eraseIdx i }).getLf c.arena.raw = .ok ⟨el, p⟩ := by
      rw [hca]; exact getLf_ok hL
    have hhere : assertM (decide (c.arena.raw = l)) = .ok () := assertM_true (decide_eq_true (by rw [hca]; rfl))
    simp only [removeLeaf, hL, getIn_ok hN, bind_ok, hslot, vremove, hc, hhere]
    rw [hg2]
    simp only [bind_ok]
    have hun : ({ (s.setIn p { N with children := N.children.eraseIdx i }) with
        lf := (s.setIn p { N with children := N.children.eraseIdx i }).lf.remove c.arena.raw } : Tree E C) =
        unlinkLeaf s p i l N := by rw [hca]; rfl
    rw [hun, e1]
    simp only [bind_ok, Node.isEmpty, Node.isLack, MAXC, pure_ok]
    by_cases hz : N.children.eraseIdx i = []
    · rw [hz] at f1
      simp only [List.length_nil, if_true] at f1
      simp [hz, f1]
    · have : (N.children.eraseIdx i).length ≠ 0 := fun e => hz (List.length_eq_zero_iff.mp e)
      rw [if_neg this] at f1
      by_cases h6 : (N.children.eraseIdx i).length < 6
      · rw [if_pos h6] at f1; simp [hz, h6, f1]
      · rw [if_neg h6] at f1; cases f1; simp [hz, h6]
  · rw [f5.entries]
    exact entries_del g.wf hs o1 o2 el2

theorem removeLeaf_none {l o : Nat} (hl : elm s l = none) : removeLeaf B s ⟨l, o⟩ = .ok (none, s) := by
  have : s.lf.get l = none := lpar_none.mp (elm_none.mp hl)
  simp [removeLeaf, this]

end
end GB

import Verif.Proof.Content
import Verif.Proof.OrdMap
import Verif.Spec.Update

/-!
# `update_leaf`
-/

namespace GB
variable {E C D : Type}
open Tree

section
variable {s s' : Tree E C} {lvl : Nat → Nat} {h p : Nat} {B : Trait E C D} {A : Law B}

/-- edits of the leaves below one node compose -/
theorem leafEdit_trans {s1 s2 : Tree E C} (r1 : LeafEdit s s1 p) (r2 : LeafEdit s1 s2 p) : LeafEdit s s2 p := by
  refine ⟨r2.root.trans r1.root, r2.items.trans r1.items, fun y => (r2.lnk y).trans (r1.lnk y),
    fun y hy => (r2.chs y hy).trans (r1.chs y hy), ?_, r2.nodup, ?_, ?_⟩
  · intro a ha
    obtain ⟨l, rfl, h2, h3⟩ := r2.kid a ha
    refine ⟨l, rfl, h2, ?_⟩
    by_cases hk : Idx.leaf l ∈ kids s p
    · exact .inr hk
    · by_cases hk1 : Idx.leaf l ∈ kids s1 p
      · obtain ⟨l', e, -, h5⟩ := r1.kid _ hk1
        cases e
        exact h5
      · left
        rcases h3 with h3 | h3
        · rw [← r1.frame l hk hk1]; exact h3
        · exact absurd h3 hk1
  · intro l h1 h2
    by_cases hk1 : Idx.leaf l ∈ kids s1 p
    · exact r2.gone l hk1 h2
    · rw [r2.frame l hk1 h2]; exact r1.gone l h1 hk1
  · intro l h1 h2
    by_cases hk1 : Idx.leaf l ∈ kids s1 p
    · have h3 := r2.gone l hk1 h2
      obtain ⟨l', e, -, h5⟩ := r1.kid _ hk1
      cases e
      rcases h5 with h5 | h5
      · rw [h3, h5]
      · exact absurd h5 h1
    · rw [r2.frame l hk1 h2, r1.frame l h1 hk1]

/-- the leaves below `p` have been edited and hold the right caches: the climb from `p` repairs the tree -/
theorem edit_climb (g : Good A s lvl h) (hp : lnk s p ≠ none) (hl : lvl p = 1) (r : LeafEdit s s' p) (hrc : s'.rootCache = s.rootCache)
    (hne : chs s' p ≠ [] ∨ p = s.root ∨ LawE A) (ent : ∀ c ∈ chs s' p, EntryOK A s' c ∧ A.okC c.cache)
    (hel : ∀ l e, .leaf l ∉ kids s p → lpar s l ≠ none → elm s' l = some e → elm s l = some e)
    (hok : ∀ l e, elm s' l = some e → A.okE e) :
    ∃ s2, recursiveUpdateCache B s' (.internal p) B.useDiff none = .ok s2 ∧ Good A s2 lvl h ∧ SameShape s' s2 ∧ s2.lf = s'.lf := by
  have w' := r.wf g.wf hp hl
  have cok' : COk A s' := r.cok g.cok (fun c hc => (ent c hc).2)
  have cinv' : CInv A s' (fun a => a = .internal p) := by
    refine r.cinv g.wf (X := noX) (X' := fun a => a = .internal p) g.cinv (fun _ h => absurd h (fun h => h)) rfl ?_ ?_
    · intro l e h1 h2 h3 _; exact hel l e h1 h2 h3
    · intro c hc _; exact (ent c hc).1
  obtain ⟨s2, e1, e2, e3, e4, e5, e6⟩ := recursiveUpdateCache_internal (x := p) w' cok' (by rw [r.lnk]; exact hp)
    (by rw [r.root]; exact hne)
    cinv' B.useDiff none (fun h => h) (fun d _ h => by cases h)
    (by
      intro _ _ hpr
      rw [r.root] at hpr
      refine RootOK.congr (s := s) ?_ hrc g.rok
      rw [r.root]
      exact r.chs _ (Ne.symm hpr))
  refine ⟨s2, e1, ⟨e2.wf w', e6, e4, e5, ?_⟩, e2, e3⟩
  intro l e he
  have : elm s2 l = elm s' l := by simp [elm, e3]
  rw [this] at he
  exact hok l e he

/-- the sequence after linking a new leaf right behind leaf `l` -/
theorem link_entries (w : WF s lvl h) {N : Node C} (hN : s.inn.get p = some N) (hl : lvl p = 1) {i l : Nat} (data : E)
    (hed : Edge s p i (.leaf l)) {U V : List (Nat × E)} {e : E} (hent : entries s = U ++ (l, e) :: V) :
    entries (linkLeaf B s p (i + 1) data N) = U ++ (l, e) :: (s.lf.items.length, data) :: V := by
  obtain ⟨r, hch, hk, hel⟩ := linkLeaf_spec (B := B) w hN hl (i + 1) data
  obtain ⟨u, v, o1, o2, o3, o4⟩ := ins_order r w (lnk_isSome.mpr ⟨N, hN⟩) hl hk
  obtain ⟨n1, n2⟩ := entries_ins w o1 o2 (lpar_fresh s) hel
  obtain ⟨u0, v0, p1, rfl, rfl, hle⟩ := entries_split w hent
  have nd := order_nodup w
  rw [p1] at nd
  obtain ⟨u', rfl⟩ := o4 l (by omega) (by simpa using hed)
  rw [p1, List.append_assoc] at o1
  obtain ⟨rfl, h4⟩ := nodup_append_cons_inj o1 nd
  subst h4
  rw [n2, entriesOf_append, entriesOf_cons hle]
  simp

theorem linkLeaf_ent (w : WF s lvl h) {N : Node C} (hN : s.inn.get p = some N) (hl : lvl p = 1) {data : E} (hd : A.okE data) (j : Nat)
    (ent : ∀ c ∈ chs s p, EntryOK A s c ∧ A.okC c.cache) :
    ∀ c ∈ chs (linkLeaf B s p j data N) p, EntryOK A (linkLeaf B s p j data N) c ∧ A.okC c.cache := by
  obtain ⟨r, hch, hk, hel⟩ := linkLeaf_spec (B := B) w hN hl j data
  intro c hc
  rw [hch] at hc
  have hold : c ∈ chs s p → EntryOK A (linkLeaf B s p j data N) c ∧ A.okC c.cache := by
    intro hc
    obtain ⟨i, hi⟩ := List.mem_iff_getElem?.mp hc
    have hed : Edge s p i c.arena := edge_chs.mpr ⟨c, hi, rfl⟩
    obtain ⟨l, hlf⟩ := (w.kid_leaf_iff hed).mp hl
    refine ⟨?_, (ent c hc).2⟩
    have := (ent c hc).1
    simp only [EntryOK, hlf, hel] at this ⊢
    have hne : l ≠ s.lf.items.length := by
      rintro rfl
      rw [hlf] at hed
      have := (w.klf hed).2
      rw [lpar_fresh] at this; cases this
    rw [if_neg hne]
    exact this
  rcases List.mem_append.mp hc with hc | hc
  · exact hold (List.mem_of_mem_take hc)
  · rcases List.mem_cons.mp hc with rfl | hc
    · refine ⟨?_, A.elem_ok _ hd⟩
      simp only [EntryOK]
      intro e he
      rw [hel, if_pos rfl] at he
      cases he; rfl
    · exact hold (List.mem_of_mem_drop hc)

theorem good_ent (g : Good A s lvl h) : ∀ c ∈ chs s p, EntryOK A s c ∧ A.okC c.cache :=
  fun c hc => ⟨g.cinv p c hc (fun h => h), g.cok p c hc⟩

theorem linkLeaf_len {N : Node C} (hN : s.inn.get p = some N) {j : Nat} (data : E) :
    (chs (linkLeaf B s p j data N) p).length = (chs s p).length + 1 := by
  have hp : lnk (addLf s ⟨data, p⟩) p ≠ none := lnk_isSome.mpr ⟨N, hN⟩
  rw [linkLeaf, chs_setIn _ hp, if_pos rfl, chs_of hN]
  conv => rhs; rw [← List.take_append_drop j N.children]
  simp only [List.length_append, List.length_cons]
  omega

/-- one more leaf below `p`, then the climb -/
theorem link_climb1 {m : Fill} (g : Good A s lvl h) (sz : Sz m s h) {N : Node C} (hN : s.inn.get p = some N)
    {i l : Nat} {a : E} (ha : A.okE a) (hed : Edge s p i (.leaf l)) (hlen : N.children.length + 1 ≤ 11)
    {U V : List (Nat × E)} {e : E} (hent : entries s = U ++ (l, e) :: V) :
    ∃ s2, recursiveUpdateCache B (linkLeaf B s p (i + 1) a N) (.internal p) B.useDiff none = .ok s2 ∧ Good A s2 lvl h ∧ Sz m s2 h ∧
      s2.lf.items.length = s.lf.items.length + 1 ∧ entries s2 = U ++ (l, e) :: (s.lf.items.length, a) :: V := by
  have hl := (g.wf.klf hed).1
  have hp : lnk s p ≠ none := lnk_isSome.mpr ⟨N, hN⟩
  obtain ⟨r, hch, hk, hel⟩ := linkLeaf_spec (B := B) g.wf hN hl (i + 1) a
  have hl1 := linkLeaf_len (B := B) hN (j := i + 1) a
  obtain ⟨s2, h1, h2, h3, h4⟩ := edit_climb (B := B) g hp hl r rfl (Or.inl (by intro e; rw [e] at hl1; simp at hl1))
    (linkLeaf_ent g.wf hN hl ha _ (good_ent g))
    (by
      intro k x _ hk hx
      rw [hel, if_neg] at hx
      · exact hx
      · rintro rfl; exact hk (lpar_fresh s))
    (by
      intro k x hx
      rw [hel] at hx
      split at hx
      · cases hx; exact ha
      · exact g.okE k x hx)
  have hsame := h3.same h4
  refine ⟨s2, h1, h2, SzX.congr h3 ?_, ?_, ?_⟩
  · intro y hy _
    rw [r.lnk] at hy
    obtain ⟨z1, z2, z3⟩ := sz y hy (fun h => h)
    rw [r.root]
    by_cases hyp : y = p
    · subst hyp
      rw [hl1]
      rw [chs_of hN] at *
      exact ⟨hlen, fun hr => (z2 hr).keep (LSp.edit r g.wf hl) (by omega), fun hr hh => by have := z3 hr hh; omega⟩
    · rw [r.chs y hyp]; exact ⟨z1, fun hr => (z2 hr).keep (LSp.edit r g.wf hl) (Nat.le_refl _), z3⟩
  · rw [h4]; simp [linkLeaf, addLf, Arena.insert]
  · rw [hsame.entries]
    exact link_entries g.wf hN hl a hed hent

/-- two more leaves below `p`, then the climb -/
theorem link_climb2 {m : Fill} (g : Good A s lvl h) (sz : Sz m s h) {N : Node C} (hN : s.inn.get p = some N)
    {i l : Nat} {a b : E} (ha : A.okE a) (hb : A.okE b) (hed : Edge s p i (.leaf l)) (hlen : N.children.length + 2 ≤ 11)
    {U V : List (Nat × E)} {e : E} (hent : entries s = U ++ (l, e) :: V) :
    ∃ N1, (linkLeaf B s p (i + 1) a N).inn.get p = some N1 ∧
      N1 = { N with children := N.children.take (i + 1) ++ ⟨.leaf s.lf.items.length, B.elemCache a⟩ :: N.children.drop (i + 1) } ∧
    ∃ s2, recursiveUpdateCache B (linkLeaf B (linkLeaf B s p (i + 1) a N) p (i + 2) b N1) (.internal p) B.useDiff none = .ok s2 ∧
      Good A s2 lvl h ∧ Sz m s2 h ∧ s2.lf.items.length = s.lf.items.length + 2 ∧
      entries s2 = U ++ (l, e) :: (s.lf.items.length, a) :: (s.lf.items.length + 1, b) :: V := by
  have hl := (g.wf.klf hed).1
  have hp : lnk s p ≠ none := lnk_isSome.mpr ⟨N, hN⟩
  obtain ⟨r, hch, hk, hel⟩ := linkLeaf_spec (B := B) g.wf hN hl (i + 1) a
  have hl1 := linkLeaf_len (B := B) hN (j := i + 1) a
  have w1 := r.wf g.wf hp hl
  generalize ht : linkLeaf B s p (i + 1) a N = t at *
  have hN1 : t.inn.get p = some { N with children := N.children.take (i + 1) ++ ⟨.leaf s.lf.items.length, B.elemCache a⟩ :: N.children.drop (i + 1) } := by
    rw [← ht]
    simp only [linkLeaf, setIn, inn_addLf]
    rw [Arena.get_set_self hN]
  refine ⟨_, hN1, rfl, ?_⟩
  generalize (Node.mk N.parent N.slot (N.children.take (i + 1) ++ Child.mk (.leaf s.lf.items.length) (B.elemCache a) :: N.children.drop (i + 1))) = N1 at hN1
  have hlt : t.lf.items.length = s.lf.items.length + 1 := by rw [← ht]; simp [linkLeaf, addLf, Arena.insert]
  obtain ⟨r2, hch2, hk2, hel2⟩ := linkLeaf_spec (B := B) w1 hN1 hl (i + 2) b
  have hl2 := linkLeaf_len (B := B) hN1 (j := i + 2) b
  have hent1 : entries t = U ++ (l, e) :: (s.lf.items.length, a) :: V := by rw [← ht]; exact link_entries g.wf hN hl a hed hent
  have hed1 : Edge t p (i + 1) (.leaf s.lf.items.length) := by
    have hi : i < (kids s p).length := (List.getElem?_eq_some_iff.mp hed).1
    rw [Edge, hk, List.getElem?_append_right (by rw [List.length_take]; omega), List.length_take, Nat.min_eq_left (by omega)]
    simp
  have ent1 : ∀ c ∈ chs t p, EntryOK A t c ∧ A.okC c.cache := by
    rw [← ht]; exact linkLeaf_ent g.wf hN hl ha _ (good_ent g)
  obtain ⟨s2, h1, h2, h3, h4⟩ := edit_climb (B := B) g hp hl (leafEdit_trans r r2) (by rw [show (linkLeaf B t p (i + 2) b N1).rootCache = t.rootCache from rfl, ← ht]; rfl)
    (Or.inl (by intro e; rw [e] at hl2; simp at hl2))
    (linkLeaf_ent w1 hN1 hl hb _ ent1)
    (by
      intro k x _ hk hx
      rw [hel2] at hx
      split at hx
      · next hk2 =>
        exfalso
        apply hk
        rw [hk2, hlt]
        rw [lpar_none]
        exact Arena.get_ge _ (by omega)
      · rw [hel, if_neg] at hx
        · exact hx
        · rintro rfl; exact hk (lpar_fresh s))
    (by
      intro k x hx
      rw [hel2] at hx
      split at hx
      · cases hx; exact hb
      · rw [hel] at hx
        split at hx
        · cases hx; exact ha
        · exact g.okE k x hx)
  have hsame := h3.same h4
  refine ⟨s2, h1, h2, SzX.congr h3 ?_, ?_, ?_⟩
  · intro y hy _
    rw [r2.lnk, r.lnk] at hy
    obtain ⟨z1, z2, z3⟩ := sz y hy (fun h => h)
    rw [r2.root, r.root]
    by_cases hyp : y = p
    · subst hyp
      rw [hl2, hl1]
      rw [chs_of hN] at *
      exact ⟨hlen, fun hr => (z2 hr).keep (fun k => (k.edit r g.wf hl).edit r2 w1 hl) (by omega), fun hr hh => by have := z3 hr hh; omega⟩
    · rw [r2.chs y hyp, r.chs y hyp]; exact ⟨z1, fun hr => (z2 hr).keep (fun k => (k.edit r g.wf hl).edit r2 w1 hl) (Nat.le_refl _), z3⟩
  · rw [h4, show (linkLeaf B t p (i + 2) b N1).lf.items.length = t.lf.items.length + 1 by simp [linkLeaf, addLf, Arena.insert], hlt]
  · rw [hsame.entries]
    have := link_entries (B := B) (U := U ++ [(l, e)]) (V := V) (e := a) w1 hN1 hl b hed1 (by rw [hent1]; simp)
    rw [this, hlt]
    simp

/-- an element whose cache does not contribute -/
def Neutral (A : Law B) (e : E) : Prop := ∀ l r, A.total (l ++ B.elemCache e :: r) = A.total (l ++ r)

/-- taking out a leaf with a neutral cache needs no cache update -/
theorem unlink_neutral (g : Good A s lvl h) (le : LawE A) {i l : Nat} {N : Node C} (hN : s.inn.get p = some N)
    (he : Edge s p i (.leaf l)) {e : E} (hel : elm s l = some e) (hn : Neutral A e) :
    Good A (unlinkLeaf s p i l N) lvl h ∧
      (∀ k, elm (unlinkLeaf s p i l N) k = if k = l then none else elm s k) ∧
      (∀ y, lnk (unlinkLeaf s p i l N) y = lnk s y) ∧
      (∀ y, y ≠ p → chs (unlinkLeaf s p i l N) y = chs s y) ∧ chs (unlinkLeaf s p i l N) p = (chs s p).eraseIdx i ∧
      ∃ u v, order s = u ++ l :: v ∧ order (unlinkLeaf s p i l N) = u ++ v := by
  have hpl : lnk s p ≠ none := lnk_isSome.mpr ⟨N, hN⟩
  have hl : lvl p = 1 := (g.wf.klf he).1
  generalize ht : unlinkLeaf s p i l N = t
  have tl : ∀ y, lnk t y = lnk s y := by
    intro y
    rw [← ht]
    show lnk (s.setIn p _) y = _
    rw [lnk_setIn s hpl]
    split
    · next e => subst e; exact (lnk_of hN).symm
    · rfl
  have tc : ∀ y, chs t y = if y = p then (chs s p).eraseIdx i else chs s y := by
    intro y
    rw [← ht]
    show chs (s.setIn p _) y = _
    rw [chs_setIn s hpl, chs_of hN]
  have tpar : ∀ k, lpar t k = if k = l then none else lpar s k := by
    intro k; rw [← ht, unlinkLeaf, lpar_freeLf, lpar_setIn]
  have telm : ∀ k, elm t k = if k = l then none else elm s k := by
    intro k; rw [← ht, unlinkLeaf, elm_freeLf, elm_setIn]
  have troot : t.root = s.root := by rw [← ht]; rfl
  have trc : t.rootCache = s.rootCache := by rw [← ht]; rfl
  have titems : t.inn.items.length = s.inn.items.length := by rw [← ht]; simp [unlinkLeaf, freeLf]
  have tcp : chs t p = (chs s p).eraseIdx i := by rw [tc, if_pos rfl]
  have tk : kids t p = (kids s p).take i ++ (kids s p).drop (i + 1) := by
    rw [kids_chs, tcp, kids_chs, List.eraseIdx_eq_take_drop_succ]; simp
  have r : LeafEdit s t p := leafEdit_del g.wf hl troot titems tl (fun y hy => by rw [tc, if_neg hy]) he tk
    (by rw [tpar, if_pos rfl]) (fun k hk => by rw [tpar, if_neg hk])
  have w' := r.wf g.wf hpl hl
  have hmem : ∀ c ∈ chs t p, c ∈ chs s p ∧ ∃ k, c.arena = .leaf k ∧ k ≠ l := by
    intro c hc
    rw [tcp] at hc
    have hcs := List.mem_of_mem_eraseIdx hc
    refine ⟨hcs, ?_⟩
    obtain ⟨j, hj⟩ := List.mem_iff_getElem?.mp hcs
    obtain ⟨k, hk⟩ := (g.wf.kid_leaf_iff (edge_chs.mpr ⟨c, hj, rfl⟩)).mp hl
    refine ⟨k, hk, ?_⟩
    rintro rfl
    have hm : Idx.leaf k ∈ kids t p := by
      rw [kids_chs, tcp, ← hk]; exact List.mem_map_of_mem hc
    obtain ⟨j2, hj2⟩ := mem_kids.mp hm
    have := (w'.klf hj2).2
    rw [tpar, if_pos rfl] at this
    cases this
  have ent : ∀ c ∈ chs t p, EntryOK A t c := by
    intro c hc
    obtain ⟨h1, k, h2, h3⟩ := hmem c hc
    have := g.cinv p c h1 (fun h => h)
    simp only [EntryOK, h2, telm, if_neg h3] at this ⊢
    exact this
  have cok' : COk A t := r.cok g.cok (fun c hc => g.cok p c (hmem c hc).1)
  have cinv' : CInv A t (fun a => a = .internal p) := by
    refine r.cinv g.wf (X := noX) (X' := fun a => a = .internal p) g.cinv (fun _ h => absurd h (fun h => h)) rfl ?_ ?_
    · intro k e _ hlv hk _
      rw [telm] at hk
      split at hk
      · cases hk
      · exact hk
    · intro c hc _; exact ent c hc
  -- neutrality: the total of `p` is unchanged
  have htot : A.total (cch t p) = A.total (cch s p) := by
    obtain ⟨c, hc, hca⟩ := edge_chs.mp he
    have hce := g.cinv p c (List.mem_iff_getElem?.mpr ⟨i, hc⟩) (fun h => h)
    simp only [EntryOK, hca] at hce
    have hce := hce e hel
    obtain ⟨hlt, hv⟩ := List.getElem?_eq_some_iff.mp hc
    have h1 : cch s p = (cch s p).take i ++ B.elemCache e :: (cch s p).drop (i + 1) := by
      have hlt' : i < (cch s p).length := by rw [cch, List.length_map]; exact hlt
      conv => lhs; rw [← List.take_append_drop i (cch s p), List.drop_eq_getElem_cons hlt']
      congr 2
      simp only [cch, List.getElem_map, hv, hce]
    have h2 : cch t p = (cch s p).take i ++ (cch s p).drop (i + 1) := by
      rw [cch, tcp, List.eraseIdx_eq_take_drop_succ]; simp [cch]
    rw [h2, h1]
    conv => rhs; rw [hn]
    rw [← h1]
  have cinv'' : CInv A t noX := by
    intro q c hc _
    by_cases ha : c.arena = .internal p
    · obtain ⟨j, hj⟩ := List.mem_iff_getElem?.mp hc
      have hqp : q ≠ p := kid_ne_self' w' hj ha
      rw [tc, if_neg hqp] at hc
      have := g.cinv q c hc (fun h => h)
      simp only [EntryOK, ha] at this ⊢
      rw [htot]; exact this
    · exact cinv' q c hc ha
  have rok' : RootOK A t := by
    by_cases hpr : p = s.root
    · have hne : chs s s.root ≠ [] := by
        rw [← hpr]
        obtain ⟨c, hc, -⟩ := edge_chs.mp he
        intro e; rw [e] at hc; cases hc
      have hrt := g.rok.1 hne
      rw [← hpr, ← htot] at hrt
      refine ⟨fun _ => by rw [trc, troot, ← hpr]; exact hrt, fun hnil => ?_⟩
      rw [troot, ← hpr] at hnil
      rw [trc, hrt, cch, hnil]
      exact le.empty_nil
    · refine RootOK.congr (s := s) ?_ trc g.rok
      rw [troot, tc, if_neg (Ne.symm hpr)]
  obtain ⟨a, b, o1, o2⟩ := r.order g.wf hpl hl
  refine ⟨⟨w', cinv'', cok', rok', ?_⟩, telm, tl, fun y hy => by rw [tc, if_neg hy], tcp, ?_⟩
  · intro k e hk
    rw [telm] at hk
    split at hk
    · cases hk
    · exact g.okE k e hk
  · refine ⟨a ++ ((kids s p).take i).map Idx.raw, ((kids s p).drop (i + 1)).map Idx.raw ++ b, ?_, ?_⟩
    · rw [o1, LeafEdit.leafIds]
      conv => lhs; rw [get_split he]
      simp [Idx.raw]
    · rw [o2, LeafEdit.leafIds, tk]
      simp

end
end GB

namespace GB
variable {E C D : Type}
open Tree

theorem normalizeUpd_spec (B : Trait E C D) (e : E) (n1 n2 : Option E) :
    (B.canRemove (normalizeUpd B e n1 n2).1 = true ∧ normalizeUpd B e n1 n2 = (e, none, none) ∧ survivors B e n1 n2 = []) ∨
    (B.canRemove (normalizeUpd B e n1 n2).1 = false ∧
      survivors B e n1 n2 = (normalizeUpd B e n1 n2).1 :: ((normalizeUpd B e n1 n2).2.1.toList ++ (normalizeUpd B e n1 n2).2.2.toList) ∧
      ((normalizeUpd B e n1 n2).2.1 = none → (normalizeUpd B e n1 n2).2.2 = none)) := by
  unfold normalizeUpd survivors
  cases he : B.canRemove e <;> cases n1 with
  | none =>
    cases n2 with
    | none => simp [he]
    | some b => cases hb : B.canRemove b <;> simp [he, hb]
  | some a =>
    cases ha : B.canRemove a <;> cases n2 with
    | none => simp [he, ha]
    | some b => cases hb : B.canRemove b <;> simp [he, ha, hb]

section
variable {s s' : Tree E C} {lvl : Nat → Nat} {h p : Nat} {B : Trait E C D} {A : Law B}

theorem next_entry (w : WF s lvl h) {i l : Nat} (hed : Edge s p i (.leaf l)) {c : Child C} (hc : (chs s p)[i + 1]? = some c)
    {U V : List (Nat × E)} {e : E} (hent : entries s = U ++ (l, e) :: V) :
    ∃ z V', V = (c.arena.raw, z) :: V' ∧ c.arena = .leaf c.arena.raw ∧ Edge s p (i + 1) c.arena ∧ elm s c.arena.raw = some z := by
  obtain ⟨a, b, hab⟩ := edge_order w hed
  obtain ⟨u, v, p1, rfl, rfl, hle⟩ := entries_split w hent
  have nd := order_nodup w
  rw [p1] at hab nd
  have hv := (nodup_append_cons_inj hab nd).2
  have hk : Edge s p (i + 1) c.arena := edge_chs.mpr ⟨c, hc, rfl⟩
  obtain ⟨hlt, hv2⟩ := List.getElem?_eq_some_iff.mp hk
  obtain ⟨k, hck⟩ := (w.kid_leaf_iff hk).mp (w.klf hed).1
  rw [List.drop_eq_getElem_cons hlt, hv2, hck] at hv
  have hk' := hk
  rw [hck] at hk'
  obtain ⟨z, hz⟩ := elm_some (s := s) (l := k) (by rw [(w.klf hk').2]; simp)
  rw [hck]
  refine ⟨z, entriesOf s (((kids s p).drop (i + 1 + 1)).map Idx.raw ++ b), ?_, rfl, hk', hz⟩
  rw [hv]
  simp only [List.map_cons, List.cons_append]
  exact entriesOf_cons hz _

/-- the removing branch of `update_leaf` -/
theorem updRemove_spec {m : Fill} (hm : 1 ≤ m.lo ∧ m.lo + m.d ≤ 6) (g : Good A s lvl h) (sz : Sz m s h) (le : LawE A) {l : Nat} {x : E}
    {U V : List (Nat × E)} (hent : entries s = U ++ (l, x) :: V) (hn : Neutral A x) {q : Nat} (hL : s.lf.get l = some ⟨x, q⟩) :
    ∃ s' lvl' h', (do
        let s := { s with lf := s.lf.remove l }
        let par ← s.getIn q
        let slot ← getLeafSlot par.children l
        let (_, cs) ← vremove par.children slot
        let par := { par with children := cs }
        let s := s.setIn q par
        let s ← (if par.isLack then handleLack B s q else pure s : M (Tree E C))
        pure (false, [], s) : M (Bool × List Nat × Tree E C)) = .ok (false, [], s') ∧ Good A s' lvl' h' ∧ Sz m s' h' ∧ h' ≤ h + 1 ∧
      entries s' = U ++ V ∧ s'.lf.items.length = s.lf.items.length := by
  have hlp : lpar s l = some q := lpar_of hL
  obtain ⟨i, hed⟩ := g.wf.lpar_edge hlp
  obtain ⟨N, hN⟩ := lnk_isSome.mp (edge_live hed)
  have hlt := (List.getElem?_eq_some_iff.mp hed).1
  rw [kids_chs, List.length_map] at hlt
  obtain ⟨g2, el2, lnk2, ch2, chp, u, v, o1, o2⟩ := unlink_neutral g le hN hed (elm_of hL) hn
  have hslot := getLeafSlot_wf g.wf hed
  rw [chs_of hN] at hslot
  obtain ⟨z1, z2, z3⟩ := sz q (edge_live hed) (fun h => h)
  have lenp : (chs (unlinkLeaf s q i l N) q).length + 1 = (chs s q).length := by
    rw [chp, List.length_eraseIdx, if_pos hlt]
    have := Nat.lt_of_le_of_lt (Nat.zero_le i) hlt
    exact Nat.sub_add_cancel this
  have hstep : (do
        let s := { s with lf := s.lf.remove l }
        let par ← s.getIn q
        let slot ← getLeafSlot par.children l
        let (_, cs) ← vremove par.children slot
        let par := { par with children := cs }
        let s := s.setIn q par
        let s ← (if par.isLack then handleLack B s q else pure s : M (Tree E C))
        pure (false, [], s) : M (Bool × List Nat × Tree E C)) =
      (do
        let s ← (if (chs (unlinkLeaf s q i l N) q).length < 6 then handleLack B (unlinkLeaf s q i l N) q
          else pure (unlinkLeaf s q i l N) : M (Tree E C))
        pure (false, [], s)) := by
    have hg : ({ s with lf := s.lf.remove l } : Tree E C).getIn q = .ok N := getIn_ok hN
    have hlt' : i < N.children.length := by rw [← chs_of hN]; exact hlt
    simp only [hg, bind_ok, hslot, vremove, List.getElem?_eq_getElem hlt']
    rw [chp, chs_of hN]
    by_cases h6 : (N.children.eraseIdx i).length < 6
    · have hk : (Node.mk N.parent N.slot (N.children.eraseIdx i)).isLack = true := decide_eq_true h6
      rw [if_pos h6, if_pos hk]
      rfl
    · have hk : ¬ (Node.mk N.parent N.slot (N.children.eraseIdx i)).isLack = true := fun h => h6 (of_decide_eq_true h)
      rw [if_neg h6, if_neg hk]
      rfl
  rw [hstep]
  have hent' : entries (unlinkLeaf s q i l N) = U ++ V := entries_del g.wf hent o1 o2 el2
  have hlf : (unlinkLeaf s q i l N).lf.items.length = s.lf.items.length := by simp [unlinkLeaf, freeLf, Arena.remove]
  have sz2 : SzX m (unlinkLeaf s q i l N) h (fun y => y = q) := by
    intro y hy hyq
    rw [lnk2] at hy
    rw [ch2 y hyq]
    obtain ⟨k1, k2, k3⟩ := sz y hy (fun h => h)
    refine ⟨k1, fun hr => (k2 hr).keep (fun hh => LSp.of_head (s := s) (s' := unlinkLeaf s q i l N) rfl ?_ hh) (Nat.le_refl _), k3⟩
    intro q' y' _ hq'
    by_cases e : q' = q
    · subst e
      have e1 := g.wf.kin (head?_edge hq')
      have := (g.wf.lvl_pos' (by rw [e1.2]; simp : lnk s y' ≠ none)).1
      have := (g.wf.klf hed).1
      omega
    · rw [kids_chs, ch2 q' e, ← kids_chs]; exact hq'
  by_cases h6 : (chs (unlinkLeaf s q i l N) q).length < 6
  · rw [if_pos h6]
    obtain ⟨s', lvl', h', f1, f2, f3, f4, f5⟩ := handleLack_spec (B := B) hm.1 hm.2 g2 (x := q) (by rw [lnk2]; exact edge_live hed) sz2 (by omega) (Or.inr le)
    refine ⟨s', lvl', h', by rw [f1]; rfl, f2, f3, by omega, by rw [f5.entries, hent'], by rw [f5.lfitems, hlf]⟩
  · rw [if_neg h6]
    refine ⟨unlinkLeaf s q i l N, lvl, h, rfl, g2, ?_, by omega, hent', hlf⟩
    intro y hy _
    by_cases hyq : y = q
    · subst hyq
      exact ⟨by omega, fun _ => .of (by omega), fun _ _ => by omega⟩
    · exact sz2 y hy hyq

/-- the inserting branch of `update_leaf` -/
theorem updInsert_spec {m : Fill} (hm : 1 ≤ m.lo ∧ m.lo + m.d ≤ 5) (g : Good A s lvl h) (sz : Sz m s h) {l : Nat} {x a : E} {n2 : Option E}
    {U V : List (Nat × E)} (hent : entries s = U ++ (l, x) :: V) (ha : A.okE a) (hb : ∀ b, n2 = some b → A.okE b)
    {p : Nat} (hL : s.lf.get l = some ⟨x, p⟩) :
    ∃ s' lvl' h', (do
        let news := a :: n2.toList
        let par ← s.getIn p
        let (p, s) ← (if MAXC ≤ par.children.length + news.length then do
            let s ← split B s p
            let node ← s.getLf l
            pure (node.parent, s)
          else pure (p, s) : M (Nat × Tree E C))
        let par ← s.getIn p
        let (c1, s) := allocLeafChild B s a p
        let (c2, s) := match n2 with
          | some b =>
            let (c, s) := allocLeafChild B s b p
            (some c, s)
          | none => (none, s)
        let slot ← getLeafSlot par.children l
        let cs ← vinsert par.children (slot + 1) c1
        let cs ← (match c2 with
          | some c => vinsert cs (slot + 2) c
          | none => pure cs : M (List (Child C)))
        let par := { par with children := cs }
        let s := s.setIn p par
        assertM (!par.isFull)
        let s ← recursiveUpdateCache B s (.internal p) B.useDiff none
        pure (true, c1.arena.raw :: (c2.map (·.arena.raw)).toList, s) : M (Bool × List Nat × Tree E C)) =
          .ok (true, s.lf.items.length :: (n2.map fun _ => s.lf.items.length + 1).toList, s') ∧
      Good A s' lvl' h' ∧ Sz m s' h' ∧ h' ≤ h + 1 ∧
      entries s' = U ++ (l, x) :: (s.lf.items.length, a) :: ((n2.map fun b => (s.lf.items.length + 1, b)).toList ++ V) ∧
      s'.lf.items.length = s.lf.items.length + 1 + n2.toList.length := by
  -- make room
  have room : ∃ s1 lvl1 h1 p1, (do
        let par ← s.getIn p
        (if MAXC ≤ par.children.length + (a :: n2.toList).length then do
            let s ← split B s p
            let node ← s.getLf l
            pure (node.parent, s)
          else pure (p, s) : M (Nat × Tree E C)) : M (Nat × Tree E C)) = .ok (p1, s1) ∧ Good A s1 lvl1 h1 ∧ Sz m s1 h1 ∧ h1 ≤ h + 1 ∧
        entries s1 = entries s ∧ s1.lf.items.length = s.lf.items.length ∧ lpar s1 l = some p1 ∧
        (chs s1 p1).length + (1 + n2.toList.length) ≤ 11 := by
    have hlp : lpar s l = some p := lpar_of hL
    obtain ⟨i, hed⟩ := g.wf.lpar_edge hlp
    obtain ⟨N, hN⟩ := lnk_isSome.mp (edge_live hed)
    have hl1 := (g.wf.klf hed).1
    obtain ⟨z1, z2, z3⟩ := sz p (edge_live hed) (fun h => h)
    have h2le : n2.toList.length ≤ 1 := by cases n2 <;> simp
    simp only [getIn_ok hN, bind_ok, List.length_cons]
    rw [chs_of hN] at z1
    by_cases hf : MAXC ≤ N.children.length + (n2.toList.length + 1)
    · rw [if_pos hf]
      simp only [MAXC] at hf
      obtain ⟨s1, lvl1, h1, e1, g1, sz1, same, -, hrs, -, hq⟩ := split_spec (B := B) hm.1 (by omega : m.lo + m.d ≤ 6) g (x := p) (edge_live hed)
        (fun y hy _ => sz y hy (fun h => h)) (by rw [chs_of hN]; omega) (by rw [chs_of hN]; omega) (by rw [chs_of hN]; omega)
      obtain ⟨q, hq1, hq2⟩ := hq (.leaf l) (mem_kids.mpr ⟨i, hed⟩)
      obtain ⟨j, hj⟩ := mem_kids.mp hq1
      have hlq := (g1.wf.klf hj).2
      obtain ⟨y, hy, -⟩ := getLf_of hlq
      refine ⟨s1, lvl1, h1, q, ?_, g1, sz1, by rcases hrs with h | h <;> omega, same.entries, same.lfitems, hlq, by omega⟩
      simp only [e1, bind_ok, getLf_ok hy]
      rfl
    · rw [if_neg hf]
      simp only [MAXC] at hf
      exact ⟨s, lvl, h, p, rfl, g, sz, by omega, rfl, rfl, lpar_of hL, by rw [chs_of hN]; omega⟩
  obtain ⟨s1, lvl1, h1, p1, e1, g1, sz1, hh1, ent1, lf1, par1, len1⟩ := room
  obtain ⟨par0, e0, e1'⟩ := bind_inv e1
  simp only [e0, bind_ok, e1']
  obtain ⟨i, hed⟩ := g1.wf.lpar_edge par1
  obtain ⟨N, hN⟩ := lnk_isSome.mp (edge_live hed)
  have hslot := getLeafSlot_wf g1.wf hed
  have hlt := (List.getElem?_eq_some_iff.mp hed).1
  rw [kids_chs, List.length_map] at hlt
  rw [chs_of hN] at hslot len1 hlt
  rw [← ent1] at hent
  cases n2 with
  | none =>
    simp only [Option.toList_none, List.length_nil] at len1
    obtain ⟨s2, c1, c2, c3, c4, c5⟩ := link_climb1 (B := B) g1 sz1 hN ha hed (by omega) hent
    refine ⟨s2, lvl1, h1, ?_, c2, c3, hh1, by rw [c5, lf1]; simp, by rw [c4, lf1]; simp⟩
    simp only [getIn_ok hN, bind_ok, allocLeafChild_eq, hslot, vinsert_ok (⟨.leaf s1.lf.items.length, B.elemCache a⟩ : Child C) (l := N.children) (i := i + 1) (by omega) (by omega),
      pure_ok]
    have hfull : (!Node.isFull (C := C) { N with children := N.children.take (i + 1) ++ ⟨.leaf s1.lf.items.length, B.elemCache a⟩ :: N.children.drop (i + 1) }) = true := by
      simp only [Node.isFull, MAXC, List.length_append, List.length_take, List.length_cons, List.length_drop]
      simp; omega
    rw [assertM_true hfull]
    simp only [bind_ok]
    have c1' := c1
    simp only [linkLeaf] at c1'
    rw [c1']
    simp [lf1, Idx.raw, pure_ok]
  | some b =>
    simp only [Option.toList_some, List.length_cons, List.length_nil] at len1
    obtain ⟨N1, hN1, hN1', s2, c1, c2, c3, c4, c5⟩ := link_climb2 (B := B) g1 sz1 hN ha (hb b rfl) hed (by omega) hent
    refine ⟨s2, lvl1, h1, ?_, c2, c3, hh1, by rw [c5, lf1]; simp, by rw [c4, lf1]; simp⟩
    have hN1c : N1.children = N.children.take (i + 1) ++ ⟨.leaf s1.lf.items.length, B.elemCache a⟩ :: N.children.drop (i + 1) := by rw [hN1']
    have hN1l : N1.children.length = N.children.length + 1 := by
      rw [hN1c]; simp; omega
    have hlf2 : (addLf s1 ⟨a, p1⟩).lf.items.length = s1.lf.items.length + 1 := by simp
    simp only [getIn_ok hN, bind_ok, allocLeafChild_eq, hslot, vinsert_ok (⟨.leaf s1.lf.items.length, B.elemCache a⟩ : Child C) (l := N.children) (i := i + 1) (by omega) (by omega),
      pure_ok, hlf2]
    rw [← hN1c, vinsert_ok _ (by omega) (by omega)]
    simp only [bind_ok]
    have hfull : (!Node.isFull (C := C) { N with children := N1.children.take (i + 2) ++ ⟨.leaf (s1.lf.items.length + 1), B.elemCache b⟩ :: N1.children.drop (i + 2) }) = true := by
      simp only [Node.isFull, MAXC, List.length_append, List.length_take, List.length_cons, List.length_drop]
      simp; omega
    rw [assertM_true hfull]
    simp only [bind_ok]
    have hst : (addLf (addLf s1 ⟨a, p1⟩) ⟨b, p1⟩).setIn p1
        { N with children := N1.children.take (i + 2) ++ ⟨.leaf (s1.lf.items.length + 1), B.elemCache b⟩ :: N1.children.drop (i + 2) } =
        linkLeaf B (linkLeaf B s1 p1 (i + 1) a N) p1 (i + 2) b N1 := by
      have hl : (linkLeaf B s1 p1 (i + 1) a N).lf.items.length = s1.lf.items.length + 1 := by simp [linkLeaf, addLf, Arena.insert]
      show _ = (addLf (linkLeaf B s1 p1 (i + 1) a N) ⟨b, p1⟩).setIn p1 { N1 with children := N1.children.take (i + 2) ++
        ⟨.leaf (linkLeaf B s1 p1 (i + 1) a N).lf.items.length, B.elemCache b⟩ :: N1.children.drop (i + 2) }
      rw [hl, hN1']
      simp only [linkLeaf, setIn, addLf, Arena.set, List.set_set]
    rw [hst, c1]
    simp [lf1, Idx.raw, pure_ok]


/-- the main theorem on `update_leaf`: `f` maps the element of `l` to `e1`, with up to two new elements to its right -/
theorem updateLeaf_spec {m : Fill} (hm : 1 ≤ m.lo ∧ m.lo + m.d ≤ 5) (g : Good A s lvl h) (sz : Sz m s h) {l : Nat} {e : E} {U V : List (Nat × E)}
    (hent : entries s = U ++ (l, e) :: V) {f : E → M (E × Bool × Option E × Option E)} {e1 : E} {need : Bool} {n1 n2 : Option E}
    (hf : f e = .ok (e1, need, n1, n2)) (ok1 : A.okE e1) (okn1 : ∀ b, n1 = some b → A.okE b) (okn2 : ∀ b, n2 = some b → A.okE b)
    (hneed : need = true ∨ B.elemCache (normalizeUpd B e1 n1 n2).1 = B.elemCache e)
    (hrem : survivors B e1 n1 n2 = [] → LawE A ∧ Neutral A e1) :
    ∃ b ids s' lvl' h', updateLeaf B s l f = .ok (b, ids, s') ∧ Good A s' lvl' h' ∧ Sz m s' h' ∧ h' ≤ h + 1 ∧
      UpdRel B s.lf.items.length l U V (survivors B e1 n1 n2) b ids s'.lf.items.length (entries s') := by
  obtain ⟨u, v, hord, -, -, hel⟩ := entries_split g.wf hent
  have hmem : l ∈ order s := by rw [hord]; simp
  obtain ⟨e0, p, i0, N0, hL, he0, hed0, hN0, -, -⟩ := leaf_get g.wf hmem
  rw [hel] at he0
  cases he0
  unfold updateLeaf
  simp only [getLf_ok hL, bind_ok, hf]
  have hnorm := normalizeUpd_spec B e1 n1 n2
  have okx : ∀ t, t = normalizeUpd B e1 n1 n2 → A.okE t.1 ∧ (∀ b, t.2.1 = some b → A.okE b) ∧ (∀ b, t.2.2 = some b → A.okE b) := by
    intro t ht
    have hall : ∀ y ∈ survivors B e1 n1 n2, A.okE y := by
      intro y hy
      have := (List.mem_filter.mp hy).1
      simp only [List.cons_append, List.mem_cons, List.mem_append, Option.mem_toList] at this
      rcases this with rfl | h | h
      · exact ok1
      · exact okn1 y h
      · exact okn2 y h
    rcases hnorm with ⟨-, h2, -⟩ | ⟨-, h2, -⟩
    · rw [ht, h2]; exact ⟨ok1, by simp, by simp⟩
    · rw [← ht] at h2
      rw [h2] at hall
      refine ⟨hall _ (by simp), fun b hb => hall b (by simp [hb]), fun b hb => hall b (by simp [hb])⟩
  obtain ⟨⟨x, a1, a2⟩, ht⟩ : ∃ t, t = normalizeUpd B e1 n1 n2 := ⟨_, rfl⟩
  obtain ⟨okX, ok2, ok3⟩ := okx _ ht
  rw [← ht] at hnorm hneed
  simp only [← ht]
  simp only at hnorm hneed okX ok2 ok3
  -- the element is replaced in place
  have step : ∃ s1, (if need = true then recursiveUpdateCache B (s.setLf l ⟨x, p⟩) (.leaf l) B.useDiff none else pure (s.setLf l ⟨x, p⟩) : M (Tree E C)) =
      .ok s1 ∧ Good A s1 lvl h ∧ Sz m s1 h ∧ entries s1 = U ++ (l, x) :: V ∧ s1.lf.items.length = s.lf.items.length ∧
        lpar s1 l = some p := by
    by_cases hnd : need = true
    · rw [if_pos hnd]
      obtain ⟨s1, k1, k2, k3, k4, k5⟩ := Good.upd g hL okX none (by intro d _ hd; cases hd)
      exact ⟨s1, k1, k2, SzX.congr k3 sz, entries_upd (e := e) g.wf k3.order k4 hent, k5, (k3.lf l).trans (lpar_of hL)⟩
    · rw [if_neg hnd]
      obtain ⟨k2, k3, k4⟩ := Good.same_cache g hL okX (hneed.resolve_left hnd)
      exact ⟨_, rfl, k2, SzX.congr k3 sz, entries_upd (e := e) g.wf k3.order k4 hent, by simp, (k3.lf l).trans (lpar_of hL)⟩
  obtain ⟨s1, e1', g1, sz1, ent1, lf1, hparp⟩ := step
  simp only [e1', bind_ok]
  rw [← lf1]
  obtain ⟨u1, v1, hord1, -, -, hel1⟩ := entries_split g1.wf ent1
  have hmem1 : l ∈ order s1 := by rw [hord1]; simp
  obtain ⟨e0, p', i, N, hL1, he0, hed, hN, -, hlt⟩ := leaf_get g1.wf hmem1
  rw [hel1] at he0
  cases he0
  have hpp : p' = p := by
    rw [lpar_of hL1] at hparp
    exact Option.some.inj hparp
  subst hpp
  rcases hnorm with ⟨r1, r2, r3⟩ | ⟨r1, r2, r3⟩
  · cases r2
    rw [if_pos r1, r3]
    obtain ⟨le, hn⟩ := hrem r3
    obtain ⟨s', lvl', h', f1, f2, f3, f3', f4, f5⟩ := updRemove_spec ⟨hm.1, by omega⟩ g1 sz1 le ent1 hn hL1
    refine ⟨false, [], s', lvl', h', f1, f2, f3, f3', ?_⟩
    rw [f4, f5]
    exact .gone
  · simp only [r1, Bool.false_eq_true, if_false]
    rw [r2]
    cases a1 with
    | none =>
      cases r3 rfl
      exact ⟨true, [], s1, lvl, h, rfl, g1, sz1, by omega, by rw [ent1]; exact .one x⟩
    | some a =>
      have ha := ok2 a rfl
      have insert_ : ∃ b ids s' lvl' h', (do
          let news := a :: a2.toList
          let par ← s1.getIn p'
          let (p, s) ← (if MAXC ≤ par.children.length + news.length then do
              let s ← split B s1 p'
              let node ← s.getLf l
              pure (node.parent, s)
            else pure (p', s1) : M (Nat × Tree E C))
          let par ← s.getIn p
          let (c1, s) := allocLeafChild B s a p
          let (c2, s) := match a2 with
            | some b =>
              let (c, s) := allocLeafChild B s b p
              (some c, s)
            | none => (none, s)
          let slot ← getLeafSlot par.children l
          let cs ← vinsert par.children (slot + 1) c1
          let cs ← (match c2 with
            | some c => vinsert cs (slot + 2) c
            | none => pure cs : M (List (Child C)))
          let par := { par with children := cs }
          let s := s.setIn p par
          assertM (!par.isFull)
          let s ← recursiveUpdateCache B s (.internal p) B.useDiff none
          pure (true, c1.arena.raw :: (c2.map (·.arena.raw)).toList, s) : M (Bool × List Nat × Tree E C)) = .ok (b, ids, s') ∧
          Good A s' lvl' h' ∧ Sz m s' h' ∧ h' ≤ h + 1 ∧
          UpdRel B s1.lf.items.length l U V (x :: ((some a).toList ++ a2.toList)) b ids s'.lf.items.length (entries s') := by
        obtain ⟨s', lvl', h', f1, f2, f3, f3', f4, f5⟩ := updInsert_spec hm g1 sz1 ent1 ha ok3 hL1
        refine ⟨_, _, s', lvl', h', f1, f2, f3, f3', ?_⟩
        rw [f4, f5]
        cases a2 with
        | none => exact .two x a
        | some b => exact .three x a b
      cases a2 with
      | some b =>
        simp only [pure_ok, bind_ok]
        exact insert_
      | none =>
        have hslot := getLeafSlot_wf g1.wf hed
        rw [chs_of hN] at hslot
        simp only [getIn_ok hN, bind_ok, hslot]
        simp only [getIn_ok hN, bind_ok] at insert_
        cases hc : N.children[i + 1]? with
        | none => 
          simp only [pure_ok, bind_ok]
          exact insert_
        | some c =>
          obtain ⟨z, V', hV, hck, hedk, hz⟩ := next_entry g1.wf hed (by rw [chs_of hN]; exact hc) ent1
          have hedk' := hedk
          rw [hck] at hedk'
          obtain ⟨y, hy, hyz⟩ := getLf_of (g1.wf.klf hedk').2
          rw [hz] at hyz
          cases hyz
          simp only [getLf_ok hy, bind_ok]
          by_cases hcm : B.canMerge a z = true
          · obtain ⟨z', q1, q2, q3⟩ := A.merge_left a z ha (g1.okE _ _ hz) hcm
            obtain ⟨s2, k1, k2, k3, k4, k5⟩ := Good.upd g1 hy q2 none (by intro d _ hd; cases hd)
            refine ⟨true, [c.arena.raw], s2, lvl, h, ?_, k2, SzX.congr k3 sz1, by omega, ?_⟩
            · rw [if_pos hcm]
              simp only [q1, bind_ok, k1, pure_ok]
            · have := entries_upd (e := z) (U := U ++ [(l, x)]) (V := V') g1.wf k3.order k4 (by rw [ent1, hV]; simp)
              rw [this, k5, List.append_assoc]
              exact .merged x a _ z z' V' hV hcm q1
          · rw [if_neg hcm]
            simp only [pure_ok, bind_ok]
            exact insert_

end
end GB

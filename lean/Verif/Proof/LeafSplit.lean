import Verif.Proof.Push

/-!
# `split_leaf_if_needed`
-/

namespace GB
variable {E C D : Type}
open Tree

section
variable {s s' : Tree E C} {lvl : Nat → Nat} {h p : Nat} {B : Trait E C D} {A : Law B}

/-- state after splitting the leaf `l`, child `i` of `p`, into `a` and `b` -/
def cutLeaf (B : Trait E C D) (s : Tree E C) (p i l : Nat) (a b : E) (N : Node C) (c : Child C) : Tree E C :=
  (addLf (s.setLf l ⟨a, p⟩) ⟨b, p⟩).setIn p { N with
    children := (N.children.set i { c with cache := B.elemCache a }).take (i + 1) ++
      ⟨.leaf s.lf.items.length, B.elemCache b⟩ :: (N.children.set i { c with cache := B.elemCache a }).drop (i + 1) }

theorem cutLeaf_spec (g : Good A s lvl h) {i l : Nat} {e a b : E} {N : Node C} {c : Child C}
    (hN : s.inn.get p = some N) (hc : N.children[i]? = some c) (hca : c.arena = .leaf l)
    (hel : elm s l = some e) (ha : A.okE a) (hb : A.okE b)
    (htot : A.total [B.elemCache a, B.elemCache b] = B.elemCache e) :
    Good A (cutLeaf B s p i l a b N c) lvl h ∧ LeafEdit s (cutLeaf B s p i l a b N c) p ∧
    (chs (cutLeaf B s p i l a b N c) p).length = N.children.length + 1 ∧
    kids (cutLeaf B s p i l a b N c) p = (kids s p).take (i + 1) ++ .leaf s.lf.items.length :: (kids s p).drop (i + 1) ∧
    (∀ k, elm (cutLeaf B s p i l a b N c) k =
      if k = s.lf.items.length then some b else if k = l then some a else elm s k) := by
  have hed : Edge s p i (.leaf l) := edge_chs.mpr ⟨c, by rw [chs_of hN]; exact hc, hca⟩
  obtain ⟨hl1, hlp⟩ := g.wf.klf hed
  have hlv : lpar s l ≠ none := by rw [hlp]; simp
  have hp0 : lnk s p ≠ none := lnk_isSome.mpr ⟨N, hN⟩
  have hp : lnk (addLf (s.setLf l ⟨a, p⟩) ⟨b, p⟩) p ≠ none := hp0
  have hlt := (List.getElem?_eq_some_iff.mp hc).1
  have hfl : l ≠ s.lf.items.length := by
    intro e'; subst e'; exact hlv (lpar_fresh s)
  have hlf : (s.setLf l ⟨a, p⟩).lf.items.length = s.lf.items.length := by simp
  have hch : chs (cutLeaf B s p i l a b N c) p = (N.children.set i { c with cache := B.elemCache a }).take (i + 1) ++
      ⟨.leaf s.lf.items.length, B.elemCache b⟩ :: (N.children.set i { c with cache := B.elemCache a }).drop (i + 1) := by
    rw [cutLeaf, chs_setIn _ hp, if_pos rfl]
  have hka : (N.children.set i { c with cache := B.elemCache a }).map Child.arena = kids s p := by
    rw [kids_chs, chs_of hN]
    apply List.ext_getElem?
    intro t
    simp only [List.getElem?_map, List.getElem?_set]
    split
    · next ht => subst ht; rw [hc]; rfl
    · rfl
  have hk : kids (cutLeaf B s p i l a b N c) p =
      (kids s p).take (i + 1) ++ .leaf s.lf.items.length :: (kids s p).drop (i + 1) := by
    rw [kids_chs, hch, ← hka]
    simp only [List.map_append, List.map_take, List.map_cons, List.map_drop]
  have hels : ∀ k, elm (cutLeaf B s p i l a b N c) k =
      if k = s.lf.items.length then some b else if k = l then some a else elm s k := by
    intro k
    rw [cutLeaf, elm_setIn, elm_addLf, elm_setLf s hlv, hlf]
  have hlps : ∀ k, k ≠ s.lf.items.length → lpar (cutLeaf B s p i l a b N c) k = lpar s k := by
    intro k hk
    rw [cutLeaf, lpar_setIn, lpar_addLf, hlf, if_neg hk, lpar_setLf s hlv]
    split
    · next e => subst e; exact hlp.symm
    · rfl
  have r : LeafEdit s (cutLeaf B s p i l a b N c) p := by
    refine leafEdit_ins g.wf hl1 (j := i + 1) (l0 := s.lf.items.length) rfl ?_ ?_ ?_ hk (lpar_fresh s) ?_ hlps
    · simp [cutLeaf]
    · intro y
      rw [cutLeaf, lnk_setIn _ hp]
      split
      · next hy => subst hy; rw [← lnk_of hN]
      · rfl
    · intro y hy
      rw [cutLeaf, chs_setIn _ hp, if_neg hy]; rfl
    · rw [cutLeaf, lpar_setIn, lpar_addLf, hlf, if_pos rfl]
  have hent := g.cinv p c (by rw [chs_of hN]; exact List.mem_iff_getElem?.mpr ⟨i, hc⟩) (fun h => h)
  simp only [EntryOK, hca] at hent
  have hce : c.cache = B.elemCache e := hent e hel
  have hsp := get_split hc
  have hchs : chs (cutLeaf B s p i l a b N c) p = N.children.take i ++ { c with cache := B.elemCache a } ::
      ⟨.leaf s.lf.items.length, B.elemCache b⟩ :: N.children.drop (i + 1) := by
    rw [hch]
    have h1 := (set_split hc { c with cache := B.elemCache a }).2
    have hlen : (N.children.take i).length = i := by rw [List.length_take]; omega
    rw [h1, List.take_append, List.drop_append, hlen]
    have e1 : i + 1 - i = 1 := by omega
    rw [e1, List.take_of_length_le (by omega), List.drop_eq_nil_of_le (as := N.children.take i) (by omega)]
    simp
  have htotal : A.total (cch (cutLeaf B s p i l a b N c) p) = A.total (cch s p) := by
    rw [cch, cch, hchs, chs_of hN]
    conv => rhs; rw [hsp]
    simp only [List.map_append, List.map_cons, hce]
    rw [← htot, A.total_flat _ _ _ (by simp)]
    simp
  have hcok : COk A (cutLeaf B s p i l a b N c) := by
    apply r.cok g.cok
    intro d hd
    rw [hchs] at hd
    have hall : ∀ d ∈ N.children, A.okC d.cache := fun d hd => g.cok p d (by rw [chs_of hN]; exact hd)
    rcases List.mem_append.mp hd with hd | hd
    · exact hall d (List.mem_of_mem_take hd)
    · rcases List.mem_cons.mp hd with rfl | hd
      · exact A.elem_ok _ ha
      · rcases List.mem_cons.mp hd with rfl | hd
        · exact A.elem_ok _ hb
        · exact hall d (List.mem_of_mem_drop hd)
  have hoth : ∀ (d : Child C) (t : Nat), N.children[t]? = some d → t ≠ i → EntryOK A (cutLeaf B s p i l a b N c) d := by
    intro d t ht hti
    have hd0 : Edge s p t d.arena := edge_chs.mpr ⟨d, by rw [chs_of hN]; exact ht, rfl⟩
    obtain ⟨k, hk⟩ := (g.wf.kid_leaf_iff hd0).mp hl1
    rw [hk] at hd0
    have := g.cinv p d (by rw [chs_of hN]; exact List.mem_iff_getElem?.mpr ⟨t, ht⟩) (fun h => h)
    simp only [EntryOK, hk] at this ⊢
    intro x hx
    rw [hels, if_neg, if_neg] at hx
    · exact this x hx
    · intro e; subst e; exact hti (g.wf.kid_lf_inj hd0 hed).2
    · intro e; subst e
      have := (g.wf.klf hd0).2
      rw [lpar_fresh] at this; cases this
  have hnew : ∀ d ∈ chs (cutLeaf B s p i l a b N c) p, EntryOK A (cutLeaf B s p i l a b N c) d := by
    intro d hd
    rw [hchs] at hd
    rcases List.mem_append.mp hd with hd | hd
    · obtain ⟨t, ht⟩ := List.mem_iff_getElem?.mp hd
      rw [List.getElem?_take] at ht
      split at ht
      · exact hoth d t ht (by omega)
      · cases ht
    · rcases List.mem_cons.mp hd with rfl | hd
      · simp only [EntryOK, hca]
        intro x hx
        rw [hels, if_neg hfl, if_pos rfl] at hx
        cases hx; rfl
      · rcases List.mem_cons.mp hd with rfl | hd
        · simp only [EntryOK]
          intro x hx
          rw [hels, if_pos rfl] at hx
          cases hx; rfl
        · obtain ⟨t, ht⟩ := List.mem_iff_getElem?.mp hd
          rw [List.getElem?_drop] at ht
          exact hoth d _ ht (by omega)
  have hcinv : CInv A (cutLeaf B s p i l a b N c) (fun a => a = .internal p) := by
    refine r.cinv g.wf (X := noX) g.cinv (fun _ h => absurd h (fun h => h)) rfl ?_ (fun d hd _ => hnew d hd)
    intro k x hkp hkl hx _
    rw [hels, if_neg, if_neg] at hx
    · exact hx
    · intro e; subst e; exact hkp (mem_kids.mpr ⟨i, hed⟩)
    · intro e; subst e; exact hkl (lpar_fresh s)
  refine ⟨⟨r.wf g.wf hp0 hl1, ?_, hcok, ?_, ?_⟩, r, ?_, hk, hels⟩
  · intro q d hd _
    by_cases hdp : d.arena = .internal p
    · obtain ⟨t, ht⟩ := List.mem_iff_getElem?.mp hd
      have hqp : q ≠ p := kid_ne_self' (r.wf g.wf hp0 hl1) ht hdp
      rw [r.chs q hqp] at hd
      have := g.cinv q d hd (fun h => h)
      simp only [EntryOK, hdp] at this ⊢
      rw [this, htotal]
    · exact hcinv q d hd hdp
  · have hne0 : chs s p ≠ [] := by rw [chs_of hN]; intro e; rw [e] at hc; simp at hc
    by_cases hpr : p = s.root
    · constructor
      · intro _
        show s.rootCache = A.total (cch (cutLeaf B s p i l a b N c) s.root)
        rw [g.rok.1 (by rw [← hpr]; exact hne0), ← hpr, htotal]
      · intro he
        exfalso
        have : chs (cutLeaf B s p i l a b N c) p = [] := by
          have h2 : (cutLeaf B s p i l a b N c).root = p := hpr.symm
          rw [h2] at he
          exact he
        rw [hchs] at this
        simp at this
    · refine RootOK.congr (s := s) ?_ rfl g.rok
      exact r.chs _ (Ne.symm hpr)
  · intro k x hx
    rw [hels] at hx
    split at hx
    · cases hx; exact hb
    · split at hx
      · cases hx; exact ha
      · exact g.okE k x hx
  · rw [hchs]
    have := congrArg List.length hsp
    simp only [List.length_append, List.length_cons] at this ⊢
    omega

theorem findIdx_leaf (w : WF s lvl h) {i l : Nat} (hed : Edge s p i (.leaf l)) :
    (chs s p).findIdx? (fun c => c.arena.raw == l) = some i := by
  obtain ⟨c, hc, hca⟩ := edge_chs.mp hed
  rw [List.findIdx?_eq_some_iff_getElem]
  obtain ⟨hlt, hv⟩ := List.getElem?_eq_some_iff.mp hc
  refine ⟨hlt, ?_, ?_⟩
  · rw [hv, hca]; simp [Idx.raw]
  · intro j hj
    simp only [beq_iff_eq]
    intro he
    have hj' : j < (chs s p).length := by omega
    have hdj : Edge s p j ((chs s p)[j]).arena := edge_chs.mpr ⟨_, List.getElem?_eq_getElem hj', rfl⟩
    obtain ⟨k, hk⟩ := (w.kid_leaf_iff hdj).mp (w.klf hed).1
    rw [hk] at he hdj
    have : k = l := he
    subst this
    have := (w.kid_lf_inj hdj hed).2
    omega

/-- what `split_leaf_if_needed` reports -/
structure InfoOK (s' : Tree E C) (info : SplitInfo) (l : Nat) (i : Nat) : Prop where
  edge : Edge s' info.parentIdx i (.leaf l)
  left : info.leftNeighbour = if i = 0 then none else ((kids s' info.parentIdx)[i - 1]?).map Idx.raw

/-- the node above the leaf `l` has room for one more child only, and all nodes above it are full -/
def NearFull (s : Tree E C) (l : Nat) : Prop := ∃ q i, Edge s q i (.leaf l) ∧ (chs s q).length = 10 ∧ Jam s q

/-- the outcome of `split_leaf_if_needed` -/
inductive CutRel (B : Trait E C D) (s : Tree E C) (pos : Cursor) (info : SplitInfo) (s' : Tree E C) : Prop
  | start (i : Nat) : pos.offset = 0 → s' = s → InfoOK s' info pos.leaf i → info.insertSlot = i → info.newLeaf = none →
      info.newPos = some pos → CutRel B s pos info s'
  | stop (i : Nat) (e : E) (u v : List Nat) : pos.offset ≠ 0 → elm s pos.leaf = some e → pos.offset = B.rleLen e → s' = s →
      InfoOK s' info pos.leaf i → info.insertSlot = i + 1 → info.newLeaf = none →
      order s = u ++ pos.leaf :: v → info.newPos = v.head?.map (fun l => ⟨l, 0⟩) → CutRel B s pos info s'
  | cut (i : Nat) (e a b : E) (u v : List Nat) : 0 < pos.offset → elm s pos.leaf = some e → pos.offset < B.rleLen e →
      B.split e pos.offset = .ok (a, b) → InfoOK s' info pos.leaf i →
      Edge s' info.parentIdx (i + 1) (.leaf s.lf.items.length) →
      info.insertSlot = i + 1 → info.newLeaf = some s.lf.items.length → info.newPos = some ⟨s.lf.items.length, 0⟩ →
      s'.lf.items.length = s.lf.items.length + 1 → order s = u ++ pos.leaf :: v →
      order s' = u ++ pos.leaf :: s.lf.items.length :: v →
      (∀ k, elm s' k = if k = s.lf.items.length then some b else if k = pos.leaf then some a else elm s k) →
      (FullAbove s' pos.leaf ↔ NearFull s pos.leaf) → CutRel B s pos info s'

theorem leftNb_ok {i l : Nat} {N : Node C} (hN : s.inn.get p = some N) (hed : Edge s p i (.leaf l)) :
    (if i = 0 then pure none else do
        let c ← vget N.children (i - 1)
        pure (some c.arena.raw) : M (Option Nat)) =
      .ok (if i = 0 then none else ((kids s p)[i - 1]?).map Idx.raw) := by
  split
  · rfl
  · obtain ⟨hlt, -⟩ := List.getElem?_eq_some_iff.mp hed
    rw [kids_chs, List.length_map, chs_of hN] at hlt
    have hc : N.children[i - 1]? = some (N.children[i - 1]'(by omega)) := List.getElem?_eq_getElem (by omega)
    rw [vget_ok hc, kids_chs, chs_of hN, List.getElem?_map, hc]
    rfl

/-- one pass of `split_leaf_if_needed`, up to the point where the leaf is actually cut -/
theorem splitLeafF_head (w : WF s lvl h) (ne : NE s) {pos : Cursor} {e : E} {q i : Nat} {N : Node C}
    (hL : s.lf.get pos.leaf = some ⟨e, q⟩) (hed : Edge s q i (.leaf pos.leaf)) (hN : s.inn.get q = some N) (n : Nat) :
    splitLeafIfNeededF B (n + 1) s pos =
      (if pos.offset = 0 then
        pure (⟨some pos, if i = 0 then none else ((kids s q)[i - 1]?).map Idx.raw, q, i, none⟩, s)
      else if pos.offset = B.rleLen e then do
        let newPos ← (match N.children[i + 1]? with
          | some c => pure (some ⟨c.arena.raw, 0⟩)
          | none => nextElem s pos : M (Option Cursor))
        pure (⟨newPos, if i = 0 then none else ((kids s q)[i - 1]?).map Idx.raw, q, i + 1, none⟩, s)
      else do
        assertM (decide (pos.offset < B.rleLen e))
        if MAXC ≤ N.children.length + 1 then do
          let s ← split B s q
          splitLeafIfNeededF B n s pos
        else do
          let (a, b) ← B.split e pos.offset
          let c ← vget N.children i
          let cs ← vinsert (N.children.set i { c with cache := B.elemCache a }) (i + 1)
            ⟨.leaf s.lf.items.length, B.elemCache b⟩
          pure (⟨some ⟨s.lf.items.length, 0⟩, if i = 0 then none else ((kids s q)[i - 1]?).map Idx.raw, q, i + 1,
            some s.lf.items.length⟩, (addLf (s.setLf pos.leaf ⟨a, q⟩) ⟨b, q⟩).setIn q { N with children := cs })) := by
  have hfi := findIdx_leaf w hed
  rw [chs_of hN] at hfi
  have hln := leftNb_ok hN hed
  simp only [splitLeafIfNeededF, getLf_ok hL, getIn_ok hN, bind_ok, hfi, unwrap, hln]
  simp only [allocLeafChild_eq, setLf_lf, Arena.items_set]
  rfl

theorem newPos_ok (w : WF s lvl h) (ne : NE s) {pos : Cursor} {q i : Nat} {N : Node C}
    (hed : Edge s q i (.leaf pos.leaf)) (hN : s.inn.get q = some N) :
    ∃ u v, order s = u ++ pos.leaf :: v ∧
      (match N.children[i + 1]? with
          | some c => pure (some ⟨c.arena.raw, 0⟩)
          | none => nextElem s pos : M (Option Cursor)) = .ok (v.head?.map fun l => ⟨l, 0⟩) := by
  have hl : lpar s pos.leaf ≠ none := by rw [(w.klf hed).2]; simp
  obtain ⟨u, v, h1, h2⟩ := nextElem_spec w ne hl
  refine ⟨u, v, h1, ?_⟩
  cases hc : N.children[i + 1]? with
  | none => exact h2
  | some c =>
    obtain ⟨a, b, hab⟩ := edge_order w hed
    have nd := order_nodup w
    rw [h1] at hab nd
    have hv := (nodup_append_cons_inj hab nd).2
    have hk : (kids s q)[i + 1]? = some c.arena := by rw [kids_chs, chs_of hN, List.getElem?_map, hc]; rfl
    obtain ⟨hlt, hv2⟩ := List.getElem?_eq_some_iff.mp hk
    rw [List.drop_eq_getElem_cons hlt, hv2] at hv
    rw [hv]
    rfl

/-- the cut at `pos` makes two leaves of one, below nodes that are all full -/
def CutRaises (B : Trait E C D) (s : Tree E C) (pos : Cursor) : Prop :=
  ∃ e, elm s pos.leaf = some e ∧ 0 < pos.offset ∧ pos.offset < B.rleLen e ∧ FullAbove s pos.leaf

/-- How a cut changes the height: it grows exactly if all nodes above the leaf are full, and then the root has few children. -/
def Rise (B : Trait E C D) (s s' : Tree E C) (pos : Cursor) (h h' : Nat) : Prop :=
  (h' = h ∧ ¬ CutRaises B s pos) ∨ (h' = h + 1 ∧ CutRaises B s pos ∧ (chs s' s'.root).length ≤ 3)

theorem Rise.le {h' : Nat} {s' : Tree E C} {pos : Cursor} (r : Rise B s s' pos h h') : h' ≤ h + 1 := by
  rcases r with h | h <;> omega

/-- two cuts raise the height at most once -/
theorem Rise.le2 {s1 s2 : Tree E C} {h1 h2 : Nat} {p1 p2 : Cursor} (r1 : Rise B s s1 p1 h h1) (r2 : Rise B s1 s2 p2 h1 h2) : h2 ≤ h + 1 := by
  rcases r1 with r1 | r1 <;> rcases r2 with r2 | r2 <;> try omega
  obtain ⟨-, ⟨e, -, -, -, hf⟩, -⟩ := r2
  have := hf.root_full
  omega

theorem splitLeafIfNeeded_spec {m : Fill} (hm1 : 1 ≤ m.lo) (hm6 : m.lo + m.d ≤ 6) (g : Good A s lvl h) (sz : Sz m s h)
    {pos : Cursor} {e : E} (hel : elm s pos.leaf = some e) (hoff : pos.offset ≤ B.rleLen e)
    (hm : m.lo + m.d ≤ 5 ∨ (pos.offset = 0 ∨ pos.offset = B.rleLen e)) :
    ∃ info s' lvl' h', splitLeafIfNeeded B s pos = .ok (info, s') ∧ Good A s' lvl' h' ∧ Sz m s' h' ∧
      h ≤ h' ∧ Rise B s s' pos h h' ∧ CutRel B s pos info s' := by
  -- one pass when no node split is needed
  have step : ∀ (n : Nat) (s : Tree E C) (lvl : Nat → Nat) (h q i : Nat) (N : Node C), Good A s lvl h → Sz m s h →
      s.lf.get pos.leaf = some ⟨e, q⟩ → Edge s q i (.leaf pos.leaf) → s.inn.get q = some N →
      (N.children.length + 1 < MAXC ∨ pos.offset = 0 ∨ pos.offset = B.rleLen e) →
      ∃ info s', splitLeafIfNeededF B (n + 1) s pos = .ok (info, s') ∧ Good A s' lvl h ∧ Sz m s' h ∧ CutRel B s pos info s' ∧
        (chs s' s'.root).length ≤ (chs s s.root).length + 1 := by
    intro n s lvl h q i N g sz hL hed hN hfull
    have ne := Sz.ne sz hm1
    have hel : elm s pos.leaf = some e := elm_of hL
    rw [splitLeafF_head g.wf ne hL hed hN]
    by_cases h0 : pos.offset = 0
    · rw [if_pos h0]
      exact ⟨_, _, rfl, g, sz, .start i h0 rfl ⟨hed, rfl⟩ rfl rfl rfl, by omega⟩
    · rw [if_neg h0]
      by_cases h1 : pos.offset = B.rleLen e
      · rw [if_pos h1]
        obtain ⟨u, v, o1, o2⟩ := newPos_ok g.wf ne hed hN
        simp only [o2, bind_ok]
        exact ⟨_, _, rfl, g, sz, .stop i e u v h0 hel h1 rfl ⟨hed, rfl⟩ rfl rfl o1 rfl, by omega⟩
      · rw [if_neg h1]
        have hlt : pos.offset < B.rleLen e := by omega
        have hnf : ¬ MAXC ≤ N.children.length + 1 := by
          rcases hfull with h2 | h2 | h2
          · omega
          · exact absurd h2 h0
          · exact absurd h2 h1
        simp only [assertM, hlt, decide_true, if_true, bind_ok, if_neg hnf]
        obtain ⟨a, b, hsp, ha, hb, htot⟩ := A.split e pos.offset (g.okE _ _ hel) (by omega) hlt
        obtain ⟨c, hc, hca⟩ := edge_chs.mp hed
        rw [chs_of hN] at hc
        have hci := (List.getElem?_eq_some_iff.mp hc).1
        obtain ⟨g', r, hlen, hk, hels⟩ := cutLeaf_spec (B := B) g hN hc hca hel ha hb htot
        simp only [hsp, bind_ok, vget_ok hc]
        rw [vinsert_ok _ (by rw [List.length_set]; omega) (by rw [List.length_set]; simp only [MAXC] at hnf; omega)]
        simp only [bind_ok]
        have hp := edge_live hed
        have hl1 := (g.wf.klf hed).1
        obtain ⟨u, v, o1, o2, -, o4⟩ := ins_order r g.wf hp hl1 hk
        obtain ⟨u', rfl⟩ := o4 pos.leaf (by omega) hed
        have hklen : (kids s q).length = N.children.length := by rw [kids_chs, List.length_map, chs_of hN]
        have htk : ((kids s q).take (i + 1)).length = i + 1 := by rw [List.length_take]; omega
        refine ⟨_, cutLeaf B s q i pos.leaf a b N c, rfl, g', ?_, ?_, ?_⟩
        rotate_left 2
        · rw [r.root]
          by_cases hrq : s.root = q
          · rw [hrq, hlen, chs_of hN]; omega
          · rw [r.chs _ hrq]; omega
        · intro y hy _
          by_cases hyq : y = q
          · subst hyq
            rw [hlen, r.root]
            have h3 := sz y hp (fun h => h)
            rw [chs_of hN] at h3
            simp only [MAXC] at hnf
            exact ⟨by omega, fun hr => (h3.2.1 hr).keep (LSp.edit r g.wf hl1) (by omega), fun hr hh => by have := h3.2.2 hr hh; omega⟩
          · exact SzX.edit r g.wf hl1 sz y hy (by simpa using hyq)
        · have hek : Edge (cutLeaf B s q i pos.leaf a b N c) q i (.leaf pos.leaf) := by
            show (kids (cutLeaf B s q i pos.leaf a b N c) q)[i]? = _
            rw [hk, List.getElem?_append_left (by omega), List.getElem?_take, if_pos (by omega)]
            exact hed
          have hkk : ∀ y, lnk s y ≠ none → 1 < lvl y → kids (cutLeaf B s q i pos.leaf a b N c) y = kids s y :=
            fun y _ hy => r.kids_ne (fun e => by rw [e, hl1] at hy; omega)
          refine .cut i e a b u' v (by omega) hel hlt hsp ⟨?_, ?_⟩ ?_ rfl rfl rfl ?_ ?_ ?_ hels ⟨?_, ?_⟩
          rotate_left 6
          · rintro ⟨q', i', h1, h2, h3⟩
            obtain ⟨rfl, -⟩ := g'.wf.kid_lf_inj hek h1
            rw [hlen] at h2
            refine ⟨q, i, hed, ?_, h3.move g'.wf r.root.symm (k := 1) (fun y hy hl => (hkk y (by rw [← r.lnk]; exact hy) hl).symm) (by omega)⟩
            rw [chs_of hN]
            simp only [MAXC] at hnf
            omega
          · rintro ⟨q', i', h1, h2, h3⟩
            obtain ⟨rfl, -⟩ := g.wf.kid_lf_inj hed h1
            rw [chs_of hN] at h2
            exact ⟨q, i, hek, by rw [hlen]; omega, h3.move g.wf r.root (k := 1) hkk (by omega)⟩
          · show (kids (cutLeaf B s q i pos.leaf a b N c) q)[i]? = _
            rw [hk, List.getElem?_append_left (by omega), List.getElem?_take, if_pos (by omega)]
            exact hed
          · show (if i = 0 then none else _) = (if i = 0 then none else Option.map Idx.raw (kids (cutLeaf B s q i pos.leaf a b N c) q)[i - 1]?)
            split
            · rfl
            · rw [hk, List.getElem?_append_left (by omega), List.getElem?_take, if_pos (by omega)]
          · show (kids (cutLeaf B s q i pos.leaf a b N c) q)[i + 1]? = _
            rw [hk, List.getElem?_append_right (by omega), htk]
            simp
          · simp [cutLeaf, addLf, Arena.insert]
          · rw [o1]; simp
          · rw [o2]; simp
  have hlive := elm_live hel
  obtain ⟨q, hq⟩ := Option.ne_none_iff_exists'.mp hlive
  obtain ⟨i, hed⟩ := g.wf.lpar_edge hq
  obtain ⟨e2, hL, he2⟩ := getLf_of hq
  rw [hel] at he2
  cases he2
  obtain ⟨N, hN⟩ := lnk_isSome.mp (edge_live hed)
  by_cases hfull : N.children.length + 1 < MAXC ∨ pos.offset = 0 ∨ pos.offset = B.rleLen e
  · obtain ⟨info, s', r1, r2, r3, r4, -⟩ := step 2 s lvl h q i N g sz hL hed hN hfull
    refine ⟨info, s', lvl, h, r1, r2, r3, Nat.le_refl _, .inl ⟨rfl, ?_⟩, r4⟩
    rintro ⟨e', he', h1, h2, q', i', hq', h3, -⟩
    rw [hel] at he'
    cases he'
    rw [← (g.wf.kid_lf_inj hed hq').1, chs_of hN] at h3
    simp only [MAXC] at hfull
    omega
  · -- the parent is split first
    have hf : MAXC ≤ N.children.length + 1 := by omega
    have h0 : pos.offset ≠ 0 := fun e => hfull (Or.inr (Or.inl e))
    have h1 : pos.offset ≠ B.rleLen e := fun e => hfull (Or.inr (Or.inr e))
    have hlt : pos.offset < B.rleLen e := by omega
    have ne := Sz.ne sz hm1
    have szq := (sz q (edge_live hed) (fun h => h)).1
    simp only [MAXC] at hf
    have hlen : (chs s q).length = 11 := by rw [chs_of hN] at szq ⊢; omega
    have hm5 : m.lo + m.d ≤ 5 := by
      rcases hm with h | h | h
      · exact h
      · exact absurd h h0
      · exact absurd h h1
    obtain ⟨s1, lvl1, h1', r1, r2, r3, r4, r5, r6, -, r8⟩ := split_spec hm1 hm6 g (edge_live hed)
      (fun y hy hyx => sz y hy (fun h => h)) (by omega) (by omega) (by omega)
    have hel1 : elm s1 pos.leaf = some e := by rw [r4.elm]; exact hel
    obtain ⟨q1, hq1⟩ := Option.ne_none_iff_exists'.mp (elm_live hel1)
    obtain ⟨i1, hed1⟩ := r2.wf.lpar_edge hq1
    obtain ⟨e2, hL1, he2⟩ := getLf_of hq1
    rw [hel1] at he2
    cases he2
    obtain ⟨N1, hN1⟩ := lnk_isSome.mp (edge_live hed1)
    have hsmall' : N1.children.length ≤ 9 := by
      obtain ⟨q2, k1, k2⟩ := r8 _ (mem_kids.mpr ⟨i, hed⟩)
      obtain ⟨i2, hed2⟩ := mem_kids.mp k1
      obtain ⟨rfl, -⟩ := r2.wf.kid_lf_inj hed1 hed2
      rw [chs_of hN1] at k2
      omega
    have hsmall : N1.children.length + 1 < MAXC := by simp only [MAXC]; omega
    obtain ⟨info, s', t1, t2, t3, t4, t5⟩ := step 1 s1 lvl1 h1' q1 i1 N1 r2 r3 hL1 hed1 hN1 (Or.inl hsmall)
    have r6 : Rise B s s' pos h h1' := by
      rcases r6 with ⟨r6, r6'⟩ | ⟨r6, r6', r6''⟩
      · refine .inl ⟨r6, ?_⟩
        rintro ⟨e', -, -, -, q', i', hq', -, hj⟩
        rw [← (g.wf.kid_lf_inj hed hq').1] at hj
        exact r6' hj
      · exact .inr ⟨r6, ⟨e, hel, by omega, hlt, q, i, hed, by omega, r6'⟩, by omega⟩
    refine ⟨info, s', lvl1, h1', ?_, t2, t3, r5, r6, ?_⟩
    · rw [splitLeafIfNeeded, splitLeafF_head g.wf ne hL hed hN, if_neg h0, if_neg h1]
      simp only [assertM, hlt, decide_true, if_true, bind_ok, MAXC, if_pos hf, r1]
      exact t1
    · cases t4 with
      | start => exact absurd ‹_› h0
      | stop i e' u v a1 a2 a3 =>
        rw [r4.elm, hel] at a2; cases a2; exact absurd a3 h1
      | cut i e' a b u v a1 a2 a3 a4 a5 a6 a7 a8 a9 a10 a11 a12 a13 a14 =>
        rw [r4.lfitems] at *
        rw [r4.elm] at a2
        rw [r4.order] at a11
        refine .cut i e' a b u v a1 a2 a3 a4 a5 a6 a7 a8 a9 a10 a11 a12 ?_ (a14.trans ⟨?_, ?_⟩)
        · intro k
          rw [a13, r4.elm]
        · rintro ⟨q', i', k1, k2, -⟩
          rw [← (r2.wf.kid_lf_inj hed1 k1).1, chs_of hN1] at k2
          omega
        · rintro ⟨q', i', k1, k2, -⟩
          rw [← (g.wf.kid_lf_inj hed k1).1] at k2
          omega

end
end GB

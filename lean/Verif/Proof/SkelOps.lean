import Verif.Proof.Skel
import Verif.Spec.History

/-!
# The operations do not depend on the caches, continued
-/

namespace GB
open Tree
variable {E C C' D D' : Type} {B : Trait E C D} {B' : Trait E C' D'}

/-- no relation -/
def AnyRel {α β : Type} (_ : α) (_ : β) : Prop := True

theorem calcCache_rel (ct : CacheTotal B) (ct' : CacheTotal B') (n : Node C) (n' : Node C') (c : C) (c' : C') :
    MRel AnyRel (calcCache B n c none) (calcCache B' n' c' none) := by
  obtain ⟨r, h1⟩ := ct.calcOk c (n.children.map Child.cache)
  obtain ⟨r', h2⟩ := ct'.calcOk c' (n'.children.map Child.cache)
  simp only [calcCache, h1, h2]
  exact MRel.ok trivial

theorem apply_rel (ct : CacheTotal B) (ct' : CacheTotal B') (c : C) (d : D) (c' : C') (d' : D') :
    MRel AnyRel (B.apply c d) (B'.apply c' d') := by
  obtain ⟨r, h1⟩ := ct.applyOk c d
  obtain ⟨r', h2⟩ := ct'.applyOk c' d'
  simp only [h1, h2]
  exact MRel.ok trivial

section
variable (ct : CacheTotal B) (ct' : CacheTotal B')
include ct ct'

theorem recUpdDiff_rel : ∀ (n : Nat) {s : Tree E C} {t : Tree E C'} (_ : TreeSame s t) (x : Nat) (d : D) (d' : D'),
    MRel TreeSame (recUpdDiff B n s x d) (recUpdDiff B' n t x d') := by
  intro n
  induction n with
  | zero => intro s t h x d d'; exact MRel.err _
  | succ n ih =>
    intro s t h x d d'
    simp only [recUpdDiff]
    refine MRel.bind (getIn_rel h x) ?_
    intro N N' hn
    rw [hn.parent, hn.slot]
    cases N'.parent with
    | none =>
      refine MRel.bind (apply_rel ct ct' _ _ _ _) ?_
      intro c c' _
      exact MRel.ok (rootCache_rel h _ _)
    | some p =>
      refine MRel.bind (getIn_rel h p) ?_
      intro m m' hm
      refine MRel.bind (vget_rel hm.chs _) ?_
      intro ch ch' hch
      refine MRel.bind (apply_rel ct ct' _ _ _ _) ?_
      intro c c' _
      exact ih (setIn_rel h p (by exact hm.withChs (hm.chs.set _ hch))) _ _ _

theorem recUpdCalc_rel : ∀ (n : Nat) {s : Tree E C} {t : Tree E C'} (_ : TreeSame s t) (x : Nat),
    MRel TreeSame (recUpdCalc B n s x) (recUpdCalc B' n t x) := by
  intro n
  induction n with
  | zero => intro s t h x; exact MRel.err _
  | succ n ih =>
    intro s t h x
    simp only [recUpdCalc]
    refine MRel.bind (getIn_rel h x) ?_
    intro N N' hn
    rw [hn.parent, hn.slot]
    cases N'.parent with
    | none =>
      simp only [h.root]
      refine MRel.bind (getIn_rel h _) ?_
      intro R R' hR
      refine MRel.bind (calcCache_rel ct ct' _ _ _ _) ?_
      rintro ⟨c, d⟩ ⟨c', d'⟩ _
      exact MRel.ok (by have := rootCache_rel h c c'; rwa [h.root] at this)
    | some p =>
      refine MRel.bind (MRel.refl _) ?_
      rintro _ _ rfl
      refine MRel.bind (getIn_rel h p) ?_
      intro m m' hm
      refine MRel.bind (vget_rel hm.chs _) ?_
      intro ch ch' hch
      refine MRel.bind (calcCache_rel ct ct' _ _ _ _) ?_
      rintro ⟨c, d⟩ ⟨c', d'⟩ _
      exact ih (setIn_rel h p (by exact hm.withChs (hm.chs.set _ hch))) _

theorem recursiveUpdateCache_rel {s : Tree E C} {t : Tree E C'} (h : TreeSame s t) (idx : Idx) (b : Bool) (d : Option D) (d' : Option D')
    (hd : d.isSome = d'.isSome) :
    MRel TreeSame (recursiveUpdateCache B s idx b d) (recursiveUpdateCache B' t idx b d') := by
  unfold recursiveUpdateCache
  have first : MRel (PairRel TreeSame Eq)
      (match idx with
        | .leaf l => do
          let leaf ← s.getLf l
          let c := B.elemCache leaf.elem
          let node ← s.getIn leaf.parent
          let i ← getLeafSlot node.children l
          let ch ← vget node.children i
          pure (s.setIn leaf.parent { node with children := node.children.set i { ch with cache := c } }, leaf.parent)
        | .internal x => pure (s, x) : M (Tree E C × Nat))
      (match idx with
        | .leaf l => do
          let leaf ← t.getLf l
          let c := B'.elemCache leaf.elem
          let node ← t.getIn leaf.parent
          let i ← getLeafSlot node.children l
          let ch ← vget node.children i
          pure (t.setIn leaf.parent { node with children := node.children.set i { ch with cache := c } }, leaf.parent)
        | .internal x => pure (t, x) : M (Tree E C' × Nat)) := by
    cases idx with
    | internal x => exact MRel.ok ⟨h, rfl⟩
    | leaf l =>
      simp only [getLf_rel h]
      refine MRel.bind (MRel.refl _) ?_
      rintro L _ rfl
      refine MRel.bind (getIn_rel h _) ?_
      intro n n' hn
      rw [getLeafSlot_rel hn.chs]
      refine MRel.bind (MRel.refl _) ?_
      rintro i _ rfl
      refine MRel.bind (vget_rel hn.chs _) ?_
      intro ch ch' hch
      exact MRel.ok ⟨setIn_rel h _ (by exact hn.withChs (hn.chs.set _ hch)), rfl⟩
  refine MRel.bind first ?_
  clear first h
  rintro ⟨s, x⟩ ⟨t, _⟩ ⟨h, rfl⟩
  have h : TreeSame s t := h
  cases b with
  | false => simp only [h.fuel]; exact recUpdCalc_rel ct ct' _ h x
  | true =>
    cases d with
    | some d =>
      cases d' with
      | none => simp at hd
      | some d' => simp only [h.fuel]; exact recUpdDiff_rel ct ct' _ h x d d'
    | none =>
      cases d' with
      | some d' => simp at hd
      | none =>
        refine MRel.bind (getIn_rel h x) ?_
        intro N N' hn
        simp only [hn.parent, hn.slot]
        cases N'.parent with
        | none =>
          simp only [h.root]
          refine MRel.bind (getIn_rel h _) ?_
          intro R R' hR
          refine MRel.bind (calcCache_rel ct ct' _ _ _ _) ?_
          rintro ⟨c, d⟩ ⟨c', d'⟩ _
          exact MRel.ok (by have := rootCache_rel h c c'; rwa [h.root] at this)
        | some p =>
          refine MRel.bind (MRel.refl _) ?_
          rintro _ _ rfl
          refine MRel.bind (getIn_rel h p) ?_
          intro m m' hm
          refine MRel.bind (vget_rel hm.chs _) ?_
          intro ch ch' hch
          refine MRel.bind (calcCache_rel ct ct' _ _ _ _) ?_
          rintro ⟨c, d⟩ ⟨c', d'⟩ _
          have h2 := setIn_rel h p (hm.withChs (hm.chs.set N'.slot (show ChSame { ch with cache := c } { ch' with cache := c' } from hch)))
          simp only [h2.fuel]
          exact recUpdDiff_rel ct ct' _ h2 p d d'

/-- the result of `split_node` -/
def SplitSame (a : (Option Nat × Nat × C × Child C) × Tree E C) (b : (Option Nat × Nat × C' × Child C') × Tree E C') : Prop :=
  a.1.1 = b.1.1 ∧ a.1.2.1 = b.1.2.1 ∧ ChSame a.1.2.2.2 b.1.2.2.2 ∧ TreeSame a.2 b.2

theorem splitNode_rel {s : Tree E C} {t : Tree E C'} (h : TreeSame s t) (x : Nat) : MRel SplitSame (splitNode B s x) (splitNode B' t x) := by
  rw [splitNode, splitNode]
  refine MRel.bind (getIn_rel h x) ?_
  intro n n' hn
  have h1 := setIn_rel h x (hn.withChs (hn.chs.take (n.children.length / 2)))
  obtain ⟨e2, h2⟩ := insertIn_rel h1 (n := ⟨n.parent, SLOT_MAX, []⟩) (n' := ⟨n'.parent, SLOT_MAX, []⟩) ⟨hn.parent, rfl, rfl⟩
  simp only [← hn.chs.length]
  simp only [e2] at h2 ⊢
  refine MRel.bind (getIn_rel h2 x) ?_
  intro l l' hl
  refine MRel.bind (calcCache_rel ct ct' _ _ _ _) ?_
  rintro ⟨c, d⟩ ⟨c', d'⟩ _
  refine MRel.bind (reparent_rel h2 (hn.chs.drop _) _ _) ?_
  intro s3 t3 h3
  refine MRel.bind (getIn_rel h3 _) ?_
  intro r r' hr
  refine MRel.bind (calcCache_rel ct ct' _ _ _ _) ?_
  rintro ⟨c2, d2⟩ ⟨c2', d2'⟩ _
  exact MRel.ok ⟨hn.parent, hn.slot, rfl, setIn_rel h3 _ (by exact hr.withChs (hn.chs.drop _))⟩

theorem splitRoot_rel {s : Tree E C} {t : Tree E C'} (h : TreeSame s t) (c : C) (c' : C') {r : Child C} {r' : Child C'} (hr : ChSame r r') :
    MRel TreeSame (splitRoot B s c r) (splitRoot B' t c' r') := by
  obtain ⟨si, sl, sr, sc⟩ := s
  obtain ⟨ti, tl, tr, tc⟩ := t
  obtain rfl : sr = tr := h.root
  rw [splitRoot, splitRoot, show r.arena = r'.arena from hr]
  refine MRel.bind (MRel.refl _) ?_
  rintro ri _ rfl
  refine MRel.bind (getIn_rel h ri) ?_
  intro n n' hn
  have h1 := setIn_rel h ri (n := { n with slot := 1, parent := some sr }) (n' := { n' with slot := 1, parent := some sr }) ⟨rfl, rfl, hn.kids⟩
  refine MRel.bind (getIn_rel h1 _) ?_
  intro m m' hm
  have h2 := setIn_rel h1 sr (n := ⟨none, 0, []⟩) (n' := ⟨none, 0, []⟩) ⟨rfl, rfl, rfl⟩
  obtain ⟨e3, h3⟩ := insertIn_rel h2 (n := ⟨some sr, 0, m.children⟩) (n' := ⟨some sr, 0, m'.children⟩) ⟨rfl, rfl, hm.kids⟩
  refine MRel.bind (getIn_rel h3 _) ?_
  intro k k' hk
  refine MRel.bind (calcCache_rel ct ct' _ _ _ _) ?_
  rintro ⟨c2, d2⟩ ⟨c2', d2'⟩ _
  have h4 := setIn_rel h3 sr (hk.withChs (ChsSame.cons (c := ⟨.internal ((((⟨si, sl, sr, sc⟩ : Tree E C).setIn ri { n with slot := 1, parent := some sr }).setIn sr ⟨none, 0, []⟩).inn.insert ⟨some sr, 0, m.children⟩).1, c⟩)
    (c' := ⟨.internal ((((⟨ti, tl, sr, tc⟩ : Tree E C').setIn ri { n' with slot := 1, parent := some sr }).setIn sr ⟨none, 0, []⟩).inn.insert ⟨some sr, 0, m'.children⟩).1, c'⟩)
    (by simp only [ChSame]; rw [e3]) (ChsSame.cons hr ChsSame.nil)))
  refine MRel.bind (reparent_rel' h4 hm.chs e3 0) ?_
  intro s6 t6 h6
  exact MRel.ok (rootCache_rel h6 _ _)

theorem splitF_rel : ∀ (n : Nat) {s : Tree E C} {t : Tree E C'} (_ : TreeSame s t) (x : Nat), MRel TreeSame (splitF B n s x) (splitF B' n t x) := by
  intro n
  induction n with
  | zero => intro s t h x; exact MRel.err _
  | succ n ih =>
    intro s t h x
    simp only [splitF]
    refine MRel.bind (splitNode_rel ct ct' h x) ?_
    rintro ⟨⟨par, slot, c, r⟩, s⟩ ⟨⟨par', slot', c', r'⟩, t⟩ ⟨e1, e2, e3, h⟩
    dsimp only at e1 e2 e3 h
    subst e1 e2
    cases par with
    | none => exact splitRoot_rel ct ct' h _ _ e3
    | some p =>
      refine MRel.bind (getIn_rel h p) ?_
      intro m m' hm
      refine MRel.bind (vget_rel hm.chs _) ?_
      intro ch ch' hch
      refine MRel.bind (vinsert_rel (hm.chs.set slot (show ChSame { ch with cache := c } { ch' with cache := c' } from hch)) _ e3) ?_
      intro cs cs' hcs
      have hm2 := hm.withChs hcs
      refine MRel.bind (updSlotsFrom_rel (setIn_rel h p hm2) p _) ?_
      intro s3 t3 h3
      simp only [hm2.isFull]
      split
      · exact ih h3 p
      · exact MRel.ok h3

theorem split_rel {s : Tree E C} {t : Tree E C'} (h : TreeSame s t) (x : Nat) : MRel TreeSame (GB.split B s x) (GB.split B' t x) := by
  rw [GB.split, GB.split, h.fuel]
  exact splitF_rel ct ct' _ h x

end

theorem allocLeafChild_rel {s : Tree E C} {t : Tree E C'} (h : TreeSame s t) (e : E) (p : Nat) :
    ChSame (allocLeafChild B s e p).1 (allocLeafChild B' t e p).1 ∧ TreeSame (allocLeafChild B s e p).2 (allocLeafChild B' t e p).2 := by
  simp only [allocLeafChild, ChSame, h.lf]
  exact ⟨trivial, h.len, h.inn, rfl, h.root⟩

section
variable (hb : ElemSame B B') (ct : CacheTotal B) (ct' : CacheTotal B')
include hb ct ct'

theorem splitLeafIfNeededF_rel : ∀ (n : Nat) {s : Tree E C} {t : Tree E C'} (_ : TreeSame s t) (pos : Cursor),
    MRel (PairRel Eq TreeSame) (splitLeafIfNeededF B n s pos) (splitLeafIfNeededF B' n t pos) := by
  intro n
  induction n with
  | zero => intro s t h pos; exact MRel.err _
  | succ n ih =>
    intro s t h pos
    simp only [splitLeafIfNeededF, getLf_rel h, hb.rleLen, hb.split]
    refine MRel.bind (MRel.refl _) ?_
    rintro L _ rfl
    refine MRel.bind (getIn_rel h _) ?_
    intro m m' hm
    rw [hm.chs.findIdx (fun a => a.raw == pos.leaf)]
    refine MRel.bind (MRel.refl _) ?_
    rintro slot _ rfl
    refine MRel.bind (R := Eq) ?_ ?_
    · split
      · exact MRel.ok rfl
      · refine MRel.bind (vget_rel hm.chs _) ?_
        intro c c' hc
        exact MRel.ok (by rw [show _ = _ from hc])
    · rintro nb _ rfl
      split
      · exact MRel.ok ⟨rfl, h⟩
      · split
        · refine MRel.bind (R := Eq) ?_ ?_
          · have := hm.chs.get (slot + 1)
            generalize m.children[slot + 1]? = a at this
            generalize m'.children[slot + 1]? = b at this
            cases this with
            | none => exact nextElem_rel h pos
            | some e => exact MRel.ok (by rw [show _ = _ from e])
          · rintro np _ rfl
            exact MRel.ok ⟨rfl, h⟩
        · refine MRel.bind (MRel.refl _) ?_
          rintro _ _ rfl
          rw [hm.chs.length]
          split
          · refine MRel.bind (split_rel ct ct' h _) ?_
            intro s2 t2 h2
            exact ih h2 pos
          · refine MRel.bind (MRel.refl _) ?_
            rintro ⟨a, b⟩ _ rfl
            have h2 := setLf_rel h pos.leaf { L with elem := a }
            obtain ⟨hc, h3⟩ := allocLeafChild_rel (B := B) (B' := B') h2 b L.parent
            refine MRel.bind (vget_rel hm.chs _) ?_
            intro c c' hcc
            refine MRel.bind (vinsert_rel (hm.chs.set slot (show ChSame { c with cache := B.elemCache a } { c' with cache := B'.elemCache a } from hcc)) _ hc) ?_
            intro cs cs' hcs
            refine MRel.ok ⟨?_, setIn_rel h3 _ (hm.withChs hcs)⟩
            simp only [show _ = _ from hc]

theorem insertByPath_rel {s : Tree E C} {t : Tree E C'} (h : TreeSame s t) (cur : Cursor) (e : E) :
    MRel (PairRel Eq TreeSame) (insertByPath B s cur e) (insertByPath B' t cur e) := by
  simp only [insertByPath, getLf_rel h, hb.rleLen, hb.canMerge, hb.mergeLeft, hb.mergeRight, hb.tryInsert, hb.useDiff]
  refine MRel.bind (MRel.refl _) ?_
  rintro L _ rfl
  have hd : (if B'.useDiff = true then some (B.newCacheToDiff (B.elemCache e)) else none).isSome =
      (if B'.useDiff = true then some (B'.newCacheToDiff (B'.elemCache e)) else none).isSome := by split <;> rfl
  refine MRel.bind (MRel.refl _) ?_
  rintro r _ rfl
  cases r with
  | inl e' =>
    refine MRel.bind (recursiveUpdateCache_rel ct ct' (setLf_rel h _ _) _ _ _ _ hd) ?_
    intro s2 t2 h2
    exact MRel.ok ⟨rfl, h2⟩
  | inr data =>
    simp only []
    split
    · refine MRel.bind (MRel.refl _) ?_
      rintro e' _ rfl
      refine MRel.bind (recursiveUpdateCache_rel ct ct' (setLf_rel h _ _) _ _ _ _ hd) ?_
      intro s2 t2 h2
      exact MRel.ok ⟨rfl, h2⟩
    · split
      · refine MRel.bind (MRel.refl _) ?_
        rintro e' _ rfl
        refine MRel.bind (recursiveUpdateCache_rel ct ct' (setLf_rel h _ _) _ _ _ _ hd) ?_
        intro s2 t2 h2
        exact MRel.ok ⟨rfl, h2⟩
      · refine MRel.bind (splitLeafIfNeededF_rel hb ct ct' 3 h cur) ?_
        rintro ⟨info, s2⟩ ⟨_, t2⟩ ⟨rfl, h2⟩
        have h2 : TreeSame s2 t2 := h2
        obtain ⟨hc, h3⟩ := allocLeafChild_rel (B := B) (B' := B') h2 data info.parentIdx
        refine MRel.bind (getIn_rel h3 _) ?_
        intro m m' hm
        refine MRel.bind (vinsert_rel hm.chs _ hc) ?_
        intro cs cs' hcs
        have hm2 := hm.withChs hcs
        refine MRel.bind (recursiveUpdateCache_rel ct ct' (setIn_rel h3 _ hm2) _ _ _ _ hd) ?_
        intro s4 t4 h4
        simp only [hm2.isFull]
        refine MRel.bind (R := TreeSame) ?_ ?_
        · split
          · exact split_rel ct ct' h4 _
          · exact MRel.ok h4
        · intro s5 t5 h5
          refine MRel.ok ⟨?_, h5⟩
          simp only [show _ = _ from hc]

theorem push_rel {s : Tree E C} {t : Tree E C'} (h : TreeSame s t) (e : E) : MRel (PairRel Eq TreeSame) (push B s e) (push B' t e) := by
  obtain ⟨si, sl, sr, sc⟩ := s
  obtain ⟨ti, tl, tr, tc⟩ := t
  obtain rfl : sr = tr := h.root
  have hd : (if B'.useDiff = true then some (B.newCacheToDiff (B.elemCache e)) else none).isSome =
      (if B'.useDiff = true then some (B'.newCacheToDiff (B'.elemCache e)) else none).isSome := by split <;> rfl
  simp only [push, getLf_rel h, hb.rleLen, hb.canMerge, hb.mergeRight, hb.useDiff, isEmpty_rel h]
  refine MRel.bind (MRel.refl _) ?_
  rintro b _ rfl
  split
  · obtain ⟨hc, h3⟩ := allocLeafChild_rel (B := B) (B' := B') h e sr
    refine MRel.bind (getIn_rel h3 _) ?_
    intro m m' hm
    refine MRel.bind (vpush_rel hm.chs hc) ?_
    intro cs cs' hcs
    refine MRel.bind (recursiveUpdateCache_rel ct ct' (setIn_rel h3 _ (hm.withChs hcs)) _ _ _ _ hd) ?_
    intro s4 t4 h4
    refine MRel.ok ⟨?_, h4⟩
    simp only [show _ = _ from hc]
  · refine MRel.bind (lastLeaf_rel h) ?_
    rintro ol _ rfl
    refine MRel.bind (MRel.refl _) ?_
    rintro l _ rfl
    refine MRel.bind (MRel.refl _) ?_
    rintro L _ rfl
    split
    · refine MRel.bind (MRel.refl _) ?_
      rintro e' _ rfl
      refine MRel.bind (recursiveUpdateCache_rel ct ct' (setLf_rel h _ _) _ _ _ _ hd) ?_
      intro s2 t2 h2
      exact MRel.ok ⟨rfl, h2⟩
    · obtain ⟨hc, h3⟩ := allocLeafChild_rel (B := B) (B' := B') h e L.parent
      refine MRel.bind (getIn_rel h3 _) ?_
      intro m m' hm
      refine MRel.bind (vpush_rel hm.chs hc) ?_
      intro cs cs' hcs
      have hm2 := hm.withChs hcs
      refine MRel.bind (recursiveUpdateCache_rel ct ct' (setIn_rel h3 _ hm2) _ _ _ _ hd) ?_
      intro s4 t4 h4
      simp only [hm2.isFull]
      refine MRel.bind (R := TreeSame) ?_ ?_
      · split
        · exact split_rel ct ct' h4 _
        · exact MRel.ok h4
      · intro s5 t5 h5
        refine MRel.ok ⟨?_, h5⟩
        simp only [show _ = _ from hc]

theorem prepend_rel {s : Tree E C} {t : Tree E C'} (h : TreeSame s t) (e : E) : MRel (PairRel Eq TreeSame) (prepend B s e) (prepend B' t e) := by
  obtain ⟨si, sl, sr, sc⟩ := s
  obtain ⟨ti, tl, tr, tc⟩ := t
  obtain rfl : sr = tr := h.root
  simp only [prepend, getLf_rel h, hb.canMerge, hb.mergeLeft, hb.useDiff]
  refine MRel.bind (firstLeaf_rel h) ?_
  rintro ol _ rfl
  cases ol with
  | none =>
    obtain ⟨hc, h3⟩ := allocLeafChild_rel (B := B) (B' := B') h e sr
    refine MRel.bind (getIn_rel h3 _) ?_
    intro m m' hm
    refine MRel.bind (vpush_rel hm.chs hc) ?_
    intro cs cs' hcs
    refine MRel.ok ⟨?_, setIn_rel h3 _ (hm.withChs hcs)⟩
    simp only [show _ = _ from hc]
  | some l =>
    refine MRel.bind (MRel.refl _) ?_
    rintro L _ rfl
    split
    · refine MRel.bind (MRel.refl _) ?_
      rintro e' _ rfl
      refine MRel.bind (recursiveUpdateCache_rel ct ct' (setLf_rel h _ _) _ _ _ _ rfl) ?_
      intro s2 t2 h2
      exact MRel.ok ⟨rfl, h2⟩
    · obtain ⟨hc, h3⟩ := allocLeafChild_rel (B := B) (B' := B') h e L.parent
      refine MRel.bind (getIn_rel h3 _) ?_
      intro m m' hm
      refine MRel.bind (vinsert_rel hm.chs _ hc) ?_
      intro cs cs' hcs
      have hm2 := hm.withChs hcs
      refine MRel.bind (recursiveUpdateCache_rel ct ct' (setIn_rel h3 _ hm2) _ _ _ _ rfl) ?_
      intro s4 t4 h4
      simp only [hm2.isFull]
      refine MRel.bind (R := TreeSame) ?_ ?_
      · split
        · exact split_rel ct ct' h4 _
        · exact MRel.ok h4
      · intro s5 t5 h5
        refine MRel.ok ⟨?_, h5⟩
        simp only [show _ = _ from hc]

end
end GB

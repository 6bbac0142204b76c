import Verif.Proof.SkelDel
import Verif.Model.Iter

/-!
# `Drain` does not depend on the caches
-/

namespace GB
open Tree
variable {E C C' D D' : Type} {B : Trait E C D} {B' : Trait E C' D'} {s : Tree E C} {t : Tree E C'}

theorem getPathF_rel (h : TreeSame s t) : ∀ (n x : Nat) (acc : List PIdx), MRel Eq (getPathF n s x acc) (getPathF n t x acc) := by
  intro n
  induction n with
  | zero => intro x acc; exact MRel.err _
  | succ n ih =>
    intro x acc
    simp only [getPathF, h.root]
    split
    · exact MRel.refl _
    · refine MRel.bind (getIn_rel h x) ?_
      intro N N' hn
      rw [hn.parent, hn.slot]
      refine MRel.bind (MRel.refl _) ?_
      rintro a _ rfl
      refine MRel.bind (MRel.refl _) ?_
      rintro p _ rfl
      exact ih p a

theorem getPath_rel (h : TreeSame s t) (i : Idx) : MRel Eq (getPath s i) (getPath t i) := by
  cases i with
  | internal x =>
    simp only [getPath, h.fuel]
    exact getPathF_rel h _ _ _
  | leaf l =>
    simp only [getPath, h.fuel, getLf_rel h]
    refine MRel.bind (MRel.refl _) ?_
    rintro L _ rfl
    refine MRel.bind (getIn_rel h _) ?_
    intro n n' hn
    rw [getLeafSlot_rel hn.chs]
    refine MRel.bind (MRel.refl _) ?_
    rintro i _ rfl
    refine MRel.bind (MRel.refl _) ?_
    rintro a _ rfl
    exact getPathF_rel h _ _ _

theorem nextSibling_rel (h : TreeSame s t) : ∀ (p : List PIdx), MRel Eq (nextSibling s p) (nextSibling t p) := by
  intro p
  induction p with
  | nil => exact MRel.ok rfl
  | cons this p ih =>
    cases p with
    | nil => exact MRel.ok rfl
    | cons parent rest =>
      simp only [nextSibling]
      refine MRel.bind (getInIdx_rel h _) ?_
      intro m m' hm
      have hg := hm.chs.get (this.arr + 1)
      generalize m.children[this.arr + 1]? = a at hg
      generalize m'.children[this.arr + 1]? = b at hg
      cases hg with
      | some e => exact MRel.ok (by rw [show _ = _ from e])
      | none =>
        refine MRel.bind ih ?_
        rintro r _ rfl
        match r with
        | none => exact MRel.ok rfl
        | some [] => exact MRel.err _
        | some (q :: rest') =>
          refine MRel.bind (getInIdx_rel h _) ?_
          intro m m' hm
          refine MRel.bind (vget_rel hm.chs _) ?_
          intro c c' hc
          exact MRel.ok (by rw [show _ = _ from hc])

theorem prevSameLevelIn_rel (h : TreeSame s t) : ∀ (n x : Nat), MRel Eq (prevSameLevelIn n s x) (prevSameLevelIn n t x) := by
  intro n
  induction n with
  | zero => intro x; exact MRel.err _
  | succ n ih =>
    intro x
    simp only [prevSameLevelIn]
    refine MRel.bind (getIn_rel h x) ?_
    intro N N' hn
    rw [hn.parent, hn.slot]
    cases N'.parent with
    | none => exact MRel.ok rfl
    | some p =>
      refine MRel.bind (getIn_rel h p) ?_
      intro m m' hm
      split
      · refine MRel.bind (vget_rel hm.chs _) ?_
        intro c c' hc
        exact MRel.ok (by rw [show _ = _ from hc])
      · refine MRel.bind (ih p) ?_
        rintro r _ rfl
        cases r with
        | none => exact MRel.ok rfl
        | some pn =>
          refine MRel.bind (getInIdx_rel h pn) ?_
          intro m m' hm
          apply MRel.ok
          have := hm.chs.last
          generalize m.children.getLast? = a at this
          generalize m'.children.getLast? = b at this
          cases this with
          | none => rfl
          | some e => simp only [Option.map_some]; rw [show _ = _ from e]

theorem prevSameLevel_rel (h : TreeSame s t) (i : Idx) : MRel Eq (prevSameLevel s i) (prevSameLevel t i) := by
  cases i with
  | internal x =>
    simp only [prevSameLevel, h.fuel]
    exact prevSameLevelIn_rel h _ _
  | leaf l =>
    simp only [prevSameLevel, prevSameLevelLeaf, h.fuel, getLf_rel h]
    refine MRel.bind (MRel.refl _) ?_
    rintro L _ rfl
    refine MRel.bind (getIn_rel h _) ?_
    intro n n' hn
    rw [getLeafSlot_rel hn.chs]
    refine MRel.bind (MRel.refl _) ?_
    rintro i _ rfl
    split
    · refine MRel.bind (vget_rel hn.chs _) ?_
      intro c c' hc
      exact MRel.ok (by rw [show _ = _ from hc])
    · refine MRel.bind (prevSameLevelIn_rel h _ _) ?_
      rintro r _ rfl
      cases r with
      | none => exact MRel.ok rfl
      | some pn =>
        refine MRel.bind (getInIdx_rel h pn) ?_
        intro m m' hm
        refine MRel.bind (unwrap_rel hm.chs.last) ?_
        intro c c' hc
        exact MRel.ok (by rw [show _ = _ from hc])

theorem nextSameLevel_rel (h : TreeSame s t) (i : Idx) : MRel Eq (nextSameLevel s i) (nextSameLevel t i) := by
  cases i with
  | internal x =>
    simp only [nextSameLevel, h.fuel]
    exact nextSameLevelIn_rel h _ _
  | leaf l => exact nextSameLevelLeaf_rel h l

/-- the same state of a drain but for the caches of the tree -/
structure DrainSame (d : Drain E C) (d' : Drain E C') : Prop where
  tree : TreeSame d.tree d'.tree
  path : d.path = d'.path
  done : d.done = d'.done
  endCursor : d.endCursor = d'.endCursor
  store : d.store = d'.store

theorem drainNext_rel {d : Drain E C} {d' : Drain E C'} (h : DrainSame d d') : MRel (PairRel Eq DrainSame) (drainNext d) (drainNext d') := by
  obtain ⟨s, p, dn, ec, st⟩ := d
  obtain ⟨t, p', dn', ec', st'⟩ := d'
  obtain ⟨ht, hp, hd, he, hs⟩ := h
  simp only at ht hp hd he hs
  subst hp hd he hs
  simp only [drainNext, getLf_rel ht]
  split
  · exact MRel.ok ⟨rfl, ht, rfl, rfl, rfl, rfl⟩
  · refine MRel.bind (MRel.refl _) ?_
    rintro last _ rfl
    refine MRel.bind (MRel.refl _) ?_
    rintro l _ rfl
    split
    · exact MRel.ok ⟨rfl, ht, rfl, rfl, rfl, rfl⟩
    · refine MRel.bind (R := Eq) ?_ ?_
      · refine MRel.bind (nextSibling_rel ht p) ?_
        rintro r _ rfl
        exact MRel.refl _
      · rintro ⟨path, dn⟩ _ rfl
        refine MRel.bind (MRel.refl _) ?_
        rintro L _ rfl
        exact MRel.ok ⟨rfl, removeLf_rel ht l, rfl, rfl, rfl, rfl⟩

theorem drainFinish_rel : ∀ (n : Nat) {d : Drain E C} {d' : Drain E C'}, DrainSame d d' → MRel (PairRel Eq DrainSame) (drainFinish n d) (drainFinish n d') := by
  intro n
  induction n with
  | zero => intro d d' h; exact MRel.err _
  | succ n ih =>
    intro d d' h
    simp only [drainFinish]
    refine MRel.bind (drainNext_rel h) ?_
    rintro ⟨r, d1⟩ ⟨_, d1'⟩ ⟨rfl, h1⟩
    have h1 : DrainSame d1 d1' := h1
    cases r with
    | none => exact MRel.ok ⟨rfl, h1⟩
    | some e =>
      refine MRel.bind (ih h1) ?_
      rintro ⟨es, d2⟩ ⟨_, d2'⟩ ⟨rfl, h2⟩
      exact MRel.ok ⟨rfl, h2⟩

theorem drainTake_rel : ∀ (n : Nat) {d : Drain E C} {d' : Drain E C'}, DrainSame d d' → MRel (PairRel Eq DrainSame) (drainTake n d) (drainTake n d') := by
  intro n
  induction n with
  | zero => intro d d' h; exact MRel.ok ⟨rfl, h⟩
  | succ n ih =>
    intro d d' h
    simp only [drainTake]
    refine MRel.bind (drainNext_rel h) ?_
    rintro ⟨r, d1⟩ ⟨_, d1'⟩ ⟨rfl, h1⟩
    refine MRel.bind (ih h1) ?_
    rintro ⟨es, d2⟩ ⟨_, d2'⟩ ⟨rfl, h2⟩
    exact MRel.ok ⟨rfl, h2⟩

theorem ChsSame.filter {cs : List (Child C)} {cs' : List (Child C')} (h : ChsSame cs cs') (p : Idx → Bool) :
    ChsSame (cs.filter fun c => p c.arena) (cs'.filter fun c => p c.arena) := by
  have h' : cs.map Child.arena = cs'.map Child.arena := h
  have e := congrArg (List.filter p) h'
  rw [List.filter_map, List.filter_map] at e
  exact e

theorem contains_rel (h : TreeSame s t) (x : Nat) : s.inn.contains x = t.inn.contains x := by
  have := h.inn x
  simp only [Arena.contains]
  generalize s.inn.get x = a at this
  generalize t.inn.get x = b at this
  cases this <;> rfl

theorem filterDeleted_rel (h : TreeSame s t) (x : Idx) : MRel TreeSame (filterDeleted s x) (filterDeleted t x) := by
  simp only [filterDeleted]
  refine MRel.bind (MRel.refl _) ?_
  rintro i _ rfl
  refine MRel.bind (getIn_rel h i) ?_
  intro n n' hn
  refine MRel.ok (setIn_rel h i (hn.withChs ?_))
  refine Eq.trans (congrArg (List.map Child.arena) (List.filter_congr
    (q := fun c => (fun a : Idx => match a with | .leaf l => t.lf.contains l | .internal y => t.inn.contains y) c.arena) ?_))
    (hn.chs.filter fun a : Idx => match a with | .leaf l => t.lf.contains l | .internal y => t.inn.contains y)
  intro c _
  cases c.arena with
  | leaf l => simp only [h.lf]
  | internal y => exact contains_rel h y

theorem delRange_rel {cs : List (Child C)} {cs' : List (Child C')} (h : ChsSame cs cs') (a b : Nat) : MRel ChsSame (delRange cs a b) (delRange cs' a b) := by
  rw [delRange, delRange, h.length]
  split
  · exact MRel.ok h
  · split
    · exact MRel.ok ((h.take a).append (h.drop b))
    · exact MRel.err _

theorem dropLoop1_rel (sp ep : List PIdx) : ∀ (level : Nat) {s : Tree E C} {t : Tree E C'} (_ : TreeSame s t) (del : List Idx),
    MRel (PairRel Eq (PairRel Eq TreeSame)) (dropLoop1 sp ep level s del) (dropLoop1 sp ep level t del) := by
  intro level
  induction level with
  | zero =>
    intro s t h del
    unfold dropLoop1
    refine MRel.bind (MRel.refl _) ?_
    rintro a _ rfl
    refine MRel.bind (MRel.refl _) ?_
    rintro b _ rfl
    split
    · exact MRel.ok ⟨rfl, rfl, h⟩
    · exact MRel.err _
  | succ l ih =>
    intro s t h del
    unfold dropLoop1
    refine MRel.bind (MRel.refl _) ?_
    rintro a _ rfl
    refine MRel.bind (MRel.refl _) ?_
    rintro b _ rfl
    split
    · exact MRel.ok ⟨rfl, rfl, h⟩
    · simp only []
      refine MRel.bind (getInIdx_rel h _) ?_
      intro an an' han
      refine MRel.bind (getInIdx_rel h _) ?_
      intro bn bn' hbn
      rw [han.isEmpty, hbn.isEmpty]
      refine MRel.bind (MRel.refl _) ?_
      rintro pa _ rfl
      refine MRel.bind (MRel.refl _) ?_
      rintro pb _ rfl
      refine MRel.bind (MRel.refl _) ?_
      rintro pai _ rfl
      refine MRel.bind (MRel.refl _) ?_
      rintro pbi _ rfl
      split
      · refine MRel.bind (getIn_rel h _) ?_
        intro par par' hp
        rw [hp.chs.length]
        refine MRel.bind (MRel.refl _) ?_
        rintro _ _ rfl
        rw [show _ = _ from (hp.chs.take _).drop _]
        refine MRel.bind (delRange_rel hp.chs _ _) ?_
        intro cs cs' hcs
        refine MRel.bind (updSlotsFrom_rel (setIn_rel h _ (hp.withChs hcs)) _ _) ?_
        intro s1 t1 h1
        exact ih h1 _
      · refine MRel.bind (getIn_rel h _) ?_
        intro par par' hp
        rw [hp.chs.length]
        refine MRel.bind (MRel.refl _) ?_
        rintro _ _ rfl
        rw [show _ = _ from hp.chs.drop _]
        refine MRel.bind (delRange_rel hp.chs _ _) ?_
        intro cs cs' hcs
        have h1 := setIn_rel h pai (hp.withChs hcs)
        refine MRel.bind (getIn_rel h1 _) ?_
        intro q q' hq
        rw [hq.chs.length]
        refine MRel.bind (MRel.refl _) ?_
        rintro _ _ rfl
        rw [show _ = _ from hq.chs.take _]
        refine MRel.bind (delRange_rel hq.chs _ _) ?_
        intro ds ds' hds
        refine MRel.bind (updSlotsFrom_rel (setIn_rel h1 _ (hq.withChs hds)) _ _) ?_
        intro s2 t2 h2
        exact ih h2 _

theorem dropLoop2_rel (sp : List PIdx) : ∀ (level : Nat) {s : Tree E C} {t : Tree E C'} (_ : TreeSame s t) (del : List Idx),
    MRel (PairRel Eq TreeSame) (dropLoop2 sp level s del) (dropLoop2 sp level t del) := by
  intro level
  induction level with
  | zero => intro s t h del; exact MRel.ok ⟨rfl, h⟩
  | succ l ih =>
    intro s t h del
    simp only [dropLoop2]
    refine MRel.bind (MRel.refl _) ?_
    rintro a _ rfl
    refine MRel.bind (MRel.refl _) ?_
    rintro pa _ rfl
    refine MRel.bind (MRel.refl _) ?_
    rintro ai _ rfl
    refine MRel.bind (MRel.refl _) ?_
    rintro pai _ rfl
    refine MRel.bind (MRel.refl _) ?_
    rintro _ _ rfl
    refine MRel.bind (getIn_rel h _) ?_
    intro ch ch' hch
    refine MRel.bind (getIn_rel h _) ?_
    intro par par' hp
    rw [hch.isEmpty]
    split
    · refine MRel.bind (vget_rel hp.chs _) ?_
      intro c c' hc
      rw [show c.arena = c'.arena from hc]
      refine MRel.bind (MRel.refl _) ?_
      rintro _ _ rfl
      refine MRel.bind (vremove_rel hp.chs _) ?_
      rintro ⟨k, cs⟩ ⟨k', cs'⟩ ⟨hk, hcs⟩
      have hk : k.arena = k'.arena := hk
      simp only [hk]
      refine MRel.bind (updSlotsFrom_rel (setIn_rel h _ (hp.withChs hcs)) _ _) ?_
      intro s2 t2 h2
      exact ih h2 _
    · exact MRel.ok ⟨rfl, h⟩

theorem purgeAll_rel : ∀ (xs : List Idx) {s : Tree E C} {t : Tree E C'} (_ : TreeSame s t), MRel TreeSame (purgeAll s xs) (purgeAll t xs) := by
  intro xs
  induction xs with
  | nil => intro s t h; exact MRel.ok h
  | cons x xs ih =>
    intro s t h
    exact MRel.bind (purge_rel h x) fun _ _ h => ih h

section
variable (ct : CacheTotal B) (ct' : CacheTotal B')
include ct ct'

theorem lackOnPath_rel : ∀ (p : List PIdx) {s : Tree E C} {t : Tree E C'} (_ : TreeSame s t) (k : Nat),
    MRel (PairRel Eq TreeSame) (lackOnPath B s p k) (lackOnPath B' t p k) := by
  intro p
  induction p with
  | nil => intro s t h k; exact MRel.ok ⟨rfl, h⟩
  | cons i rest ih =>
    intro s t h k
    simp only [lackOnPath]
    refine MRel.bind (MRel.refl _) ?_
    rintro x _ rfl
    refine MRel.bind (getIn_rel h x) ?_
    intro n n' hn
    rw [hn.isLack]
    split
    · refine MRel.bind (handleLackSingle_rel ct ct' h x) ?_
      rintro ⟨r, s1⟩ ⟨_, t1⟩ ⟨rfl, h1⟩
      exact ih h1 _
    · exact ih h k

theorem handleLackPathF_rel : ∀ (n : Nat) {s : Tree E C} {t : Tree E C'} (_ : TreeSame s t) (leaf : Idx) (k : Nat),
    MRel TreeSame (handleLackPathF B n s leaf k) (handleLackPathF B' n t leaf k) := by
  intro n
  induction n with
  | zero => intro s t h leaf k; exact MRel.err _
  | succ n ih =>
    intro s t h leaf k
    simp only [handleLackPathF]
    refine MRel.bind (getPath_rel h leaf) ?_
    rintro p _ rfl
    refine MRel.bind (lackOnPath_rel ct ct' _ h 0) ?_
    rintro ⟨r, s1⟩ ⟨_, t1⟩ ⟨rfl, h1⟩
    simp only []
    split
    · exact MRel.ok h1
    · exact ih h1 leaf _

theorem handleLackPath_rel {s : Tree E C} {t : Tree E C'} (h : TreeSame s t) (leaf : Idx) :
    MRel TreeSame (handleLackPath B s leaf) (handleLackPath B' t leaf) := by
  rw [handleLackPath, handleLackPath, h.len]
  exact handleLackPathF_rel ct ct' _ h leaf 0

theorem sealTree_rel {s : Tree E C} {t : Tree E C'} (h : TreeSame s t) (leaf : Idx) :
    MRel TreeSame (sealTree B s leaf) (sealTree B' t leaf) := by
  refine MRel.bind (handleLackPath_rel ct ct' h leaf) ?_
  intro s1 t1 h1
  refine MRel.bind (R := TreeSame) ?_ ?_
  · refine MRel.bind (nextSameLevel_rel h1 leaf) ?_
    rintro r _ rfl
    cases r with
    | none => exact MRel.ok h1
    | some sib => exact handleLackPath_rel ct ct' h1 sib
  · intro s2 t2 h2
    exact tryReduceLevels_rel h2

theorem updateRootCache_rel {s : Tree E C} {t : Tree E C'} (h : TreeSame s t) : MRel TreeSame (updateRootCache B s) (updateRootCache B' t) := by
  simp only [updateRootCache, h.root]
  refine MRel.bind (getIn_rel h _) ?_
  intro R R' hR
  refine MRel.bind (calcCache_rel ct ct' _ _ _ _) ?_
  rintro ⟨c, d⟩ ⟨c', d'⟩ _
  exact MRel.ok (by have := rootCache_rel h c c'; rwa [h.root] at this)

end

section
variable (hb : ElemSame B B') (ct : CacheTotal B) (ct' : CacheTotal B')
include hb ct ct'

theorem drainDrop_rel {d : Drain E C} {d' : Drain E C'} (h : DrainSame d d') : MRel (PairRel Eq TreeSame) (drainDrop B d) (drainDrop B' d') := by
  have hf : leafFuel d.tree = leafFuel d'.tree := by rw [leafFuel, leafFuel, h.tree.len, h.tree.lf]
  simp only [drainDrop, hf, hb.useDiff]
  refine MRel.bind (drainFinish_rel _ h) ?_
  rintro ⟨rest, d1⟩ ⟨_, d1'⟩ ⟨rfl, h1⟩
  have h1 : DrainSame d1 d1' := h1
  have ht := h1.tree
  simp only [h1.store]
  refine MRel.bind (MRel.refl _) ?_
  rintro st _ rfl
  refine MRel.bind (MRel.refl _) ?_
  rintro _ _ rfl
  refine MRel.bind (MRel.refl _) ?_
  rintro a _ rfl
  refine MRel.bind (filterDeleted_rel ht _) ?_
  intro s1 t1 h1
  refine MRel.bind (MRel.refl _) ?_
  rintro b _ rfl
  refine MRel.bind (filterDeleted_rel h1 _) ?_
  intro s2 t2 h2
  refine MRel.bind (dropLoop1_rel _ _ _ h2 _) ?_
  rintro ⟨lv, del, s3⟩ ⟨_, _, t3⟩ ⟨rfl, rfl, h3⟩
  refine MRel.bind (dropLoop2_rel _ _ h3 _) ?_
  rintro ⟨del2, s4⟩ ⟨_, t4⟩ ⟨rfl, h4⟩
  refine MRel.bind (purgeAll_rel _ h4) ?_
  intro s5 t5 h5
  refine MRel.bind (R := TreeSame) ?_ ?_
  · cases st.after with
    | none => exact MRel.ok h5
    | some af => exact recursiveUpdateCache_rel ct ct' h5 _ _ _ _ rfl
  · intro s6 t6 h6
    refine MRel.bind (R := TreeSame) ?_ ?_
    · cases st.before with
      | none =>
        refine MRel.bind (updateRootCache_rel ct ct' h6) ?_
        intro s7 t7 h7
        exact tryReduceLevels_rel h7
      | some be =>
        refine MRel.bind (R := TreeSame) ?_ ?_
        · split
          · exact recursiveUpdateCache_rel ct ct' h6 _ _ _ _ rfl
          · refine MRel.bind (recursiveUpdateCache_rel ct ct' h6 _ _ _ _ rfl) ?_
            intro s7 t7 h7
            cases st.after with
            | none => exact MRel.ok h7
            | some af => exact recursiveUpdateCache_rel ct ct' h7 _ _ _ _ rfl
        · intro s8 t8 h8
          exact sealTree_rel ct ct' h8 be
    · intro s9 t9 h9
      exact MRel.ok ⟨rfl, h9⟩

theorem drainNew_rel {s : Tree E C} {t : Tree E C'} (h : TreeSame s t) (a b : Option QueryResult) :
    MRel DrainSame (drainNew B s a b) (drainNew B' t a b) := by
  have none : ∀ {s : Tree E C} {t : Tree E C'}, TreeSame s t → DrainSame (drainNone s) (drainNone t) := fun h => ⟨h, rfl, rfl, rfl, rfl⟩
  cases a with
  | none => exact MRel.ok (none h)
  | some a =>
    cases b with
    | none => exact MRel.ok (none h)
    | some b =>
      simp only [drainNew, hb.rleLen]
      refine MRel.bind (splitLeafIfNeededF_rel hb ct ct' _ h _) ?_
      rintro ⟨ei, s1⟩ ⟨_, t1⟩ ⟨rfl, h1⟩
      have h1 : TreeSame s1 t1 := h1
      refine MRel.bind (splitLeafIfNeededF_rel hb ct ct' _ h1 _) ?_
      rintro ⟨si, s2⟩ ⟨_, t2⟩ ⟨rfl, h2⟩
      have h2 : TreeSame s2 t2 := h2
      simp only []
      cases si.newPos with
      | none => exact MRel.ok (none h2)
      | some st =>
        refine MRel.bind (getPath_rel h2 _) ?_
        rintro sp _ rfl
        refine MRel.bind (R := Eq) ?_ ?_
        · cases ei.newPos with
          | none =>
            refine MRel.bind (lastLeaf_rel h2) ?_
            rintro r _ rfl
            exact MRel.refl _
          | some c => exact MRel.ok rfl
        · rintro el _ rfl
          refine MRel.bind (getPath_rel h2 _) ?_
          rintro ep _ rfl
          refine MRel.bind (MRel.refl _) ?_
          rintro sl _ rfl
          refine MRel.bind (R := Eq) ?_ ?_
          · split
            · exact prevSameLevel_rel h2 _
            · exact MRel.ok rfl
          · rintro bf _ rfl
            refine MRel.bind (MRel.refl _) ?_
            rintro el2 _ rfl
            refine MRel.bind (R := Eq) ?_ ?_
            · cases ei.newPos with
              | none => exact MRel.ok rfl
              | some e =>
                simp only [getLf_rel h2]
                refine MRel.bind (MRel.refl _) ?_
                rintro L _ rfl
                split
                · exact nextSameLevel_rel h2 _
                · exact MRel.ok rfl
            · rintro af _ rfl
              exact MRel.ok ⟨h2, rfl, rfl, rfl, rfl⟩

theorem drain_rel {s : Tree E C} {t : Tree E C'} (h : TreeSame s t) (a b : QueryResult) (k : Nat) :
    MRel (PairRel Eq (PairRel Eq TreeSame)) (drain B s a b k) (drain B' t a b k) := by
  refine MRel.bind (drainNew_rel hb ct ct' h _ _) ?_
  intro d d' hd
  refine MRel.bind (drainTake_rel k hd) ?_
  rintro ⟨es, d1⟩ ⟨_, d1'⟩ ⟨rfl, h1⟩
  refine MRel.bind (drainDrop_rel hb ct ct' h1) ?_
  rintro ⟨rest, s1⟩ ⟨_, t1⟩ ⟨rfl, h2⟩
  exact MRel.ok ⟨rfl, rfl, h2⟩

end

end GB

import Verif.Proof.SkelSound

/-!
# `insert_many_by_cursor` and `update_leaves_with_arg_in_ranges` do not depend on the caches
-/

namespace GB
open Tree
variable {E C C' D D' σ Arg : Type} {B : Trait E C D} {B' : Trait E C' D'}

section
variable (hb : ElemSame B B')
include hb

theorem mergeAdjF_rel (last : Nat) : ∀ (n : Nat) (data : List E) (i start dl : Nat),
    mergeAdjF B last n data i start dl = mergeAdjF B' last n data i start dl := by
  intro n
  induction n with
  | zero => intros; rfl
  | succ n ih =>
    intro data i start dl
    rw [mergeAdjF, mergeAdjF]
    simp only [hb.canMerge, hb.mergeRight, ih]

theorem mergeAdj_rel (data : List E) : mergeAdj B data = mergeAdj B' data := by
  simp only [mergeAdj, mergeAdjF_rel hb]

theorem mergeIntoLeft_rel : ∀ (ds : List E) (e : E), mergeIntoLeft B e ds = mergeIntoLeft B' e ds := by
  intro ds
  induction ds with
  | nil => intro e; rfl
  | cons d ds ih =>
    intro e
    rw [mergeIntoLeft, mergeIntoLeft]
    simp only [hb.canMerge, hb.mergeRight, ih]

theorem middlePieces_rel (f : σ → E → Arg → M (σ × E)) (group : List (Nat × Nat × Arg)) : ∀ (ps : List Nat) (st : σ) (last : Nat) (e : E),
    middlePieces B f group ps st last e = middlePieces B' f group ps st last e := by
  intro ps
  induction ps with
  | nil => intros; rfl
  | cons p ps ih =>
    intro st last e
    rw [middlePieces, middlePieces]
    simp only [hb.split, ih]

theorem updOneLeaf_rel (f : σ → E → Arg → M (σ × E)) (group : List (Nat × Nat × Arg)) (st : σ) (e : E) :
    updOneLeaf B f group st e = updOneLeaf B' f group st e := by
  simp only [updOneLeaf, hb.split, hb.rleLen, middlePieces_rel hb]

end

theorem vset_rel {cs : List (Child C)} {cs' : List (Child C')} (h : ChsSame cs cs') (i : Nat) {c : Child C} {c' : Child C'} (hc : ChSame c c') :
    MRel ChsSame (vset cs i c) (vset cs' i c') := by
  rw [vset, vset, h.length]
  split
  · exact MRel.ok (h.set i hc)
  · exact MRel.err _

theorem subtreeLeaves_rel (p : Nat) : ∀ (es : List E) {s : Tree E C} {t : Tree E C'} (_ : TreeSame s t) (i : Nat),
    MRel TreeSame (subtreeLeaves B s p es i) (subtreeLeaves B' t p es i) := by
  intro es
  induction es with
  | nil => intro s t h i; exact MRel.ok h
  | cons e es ih =>
    intro s t h i
    obtain ⟨k1, k2⟩ := allocLeafChild_rel (B := B) (B' := B') h e p
    rw [subtreeLeaves, subtreeLeaves]
    refine MRel.bind (getIn_rel k2 p) ?_
    intro n n' hn
    refine MRel.bind (vset_rel hn.chs i k1) ?_
    intro cs cs' hcs
    exact ih (setIn_rel k2 p (hn.withChs hcs)) _

theorem subtreeParents_rel : ∀ (n : Nat) {s : Tree E C} {t : Tree E C'} (_ : TreeSame s t) (data : List E),
    MRel (PairRel Eq TreeSame) (subtreeParents B n s data) (subtreeParents B' n t data) := by
  intro n
  induction n with
  | zero => intro s t h data; exact MRel.err _
  | succ n ih =>
    intro s t h data
    cases data with
    | nil => exact MRel.ok ⟨rfl, h⟩
    | cons d ds =>
      rw [subtreeParents, subtreeParents]
      · obtain ⟨e1, h1⟩ := insertIn_rel h (n := ⟨none, 0, []⟩) (n' := ⟨none, 0, []⟩) ⟨rfl, rfl, rfl⟩
        simp only [e1]
        refine MRel.bind (subtreeLeaves_rel _ _ h1 0) ?_
        intro s1 t1 h1
        refine MRel.bind (ih h1 _) ?_
        rintro ⟨ps, s2⟩ ⟨_, t2⟩ ⟨rfl, h2⟩
        exact MRel.ok ⟨rfl, h2⟩
      all_goals (intro h; cases h)

section
variable (ct : CacheTotal B) (ct' : CacheTotal B')
include ct ct'

theorem subtreeLink_rel (p : Nat) : ∀ (ys : List Nat) {s : Tree E C} {t : Tree E C'} (_ : TreeSame s t) (i : Nat),
    MRel TreeSame (subtreeLink B s p ys i) (subtreeLink B' t p ys i) := by
  intro ys
  induction ys with
  | nil => intro s t h i; exact MRel.ok h
  | cons y ys ih =>
    intro s t h i
    rw [subtreeLink, subtreeLink]
    refine MRel.bind (getIn_rel h p) ?_
    intro n n' hn
    refine MRel.bind (getIn_rel h y) ?_
    intro k k' hk
    obtain ⟨r, h1⟩ := ct.calcOk B.dflt (k.children.map Child.cache)
    obtain ⟨r', h2⟩ := ct'.calcOk B'.dflt (k'.children.map Child.cache)
    simp only [h1, h2, bind_ok]
    refine MRel.bind (vset_rel hn.chs i (c := ⟨.internal y, r.1⟩) (c' := ⟨.internal y, r'.1⟩) rfl) ?_
    intro cs cs' hcs
    refine ih (setIn_rel (setIn_rel h p (hn.withChs hcs)) y (n := { k with parent := some p, slot := i }) (n' := { k' with parent := some p, slot := i }) ⟨rfl, rfl, hk.kids⟩) _

theorem subtreeLevel_rel : ∀ (n : Nat) {s : Tree E C} {t : Tree E C'} (_ : TreeSame s t) (nodes : List Nat),
    MRel (PairRel Eq TreeSame) (subtreeLevel B n s nodes) (subtreeLevel B' n t nodes) := by
  intro n
  induction n with
  | zero => intro s t h data; exact MRel.err _
  | succ n ih =>
    intro s t h data
    cases data with
    | nil => exact MRel.ok ⟨rfl, h⟩
    | cons d ds =>
      rw [subtreeLevel, subtreeLevel]
      · obtain ⟨e1, h1⟩ := insertIn_rel h (n := ⟨none, 0, []⟩) (n' := ⟨none, 0, []⟩) ⟨rfl, rfl, rfl⟩
        simp only [e1]
        refine MRel.bind (subtreeLink_rel ct ct' _ _ h1 0) ?_
        intro s1 t1 h1
        refine MRel.bind (ih h1 _) ?_
        rintro ⟨ps, s2⟩ ⟨_, t2⟩ ⟨rfl, h2⟩
        exact MRel.ok ⟨rfl, h2⟩
      all_goals (intro h; cases h)

theorem subtreeLevels_rel : ∀ (n : Nat) {s : Tree E C} {t : Tree E C'} (_ : TreeSame s t) (nodes : List Nat),
    MRel (PairRel Eq TreeSame) (subtreeLevels B n s nodes) (subtreeLevels B' n t nodes) := by
  intro n
  induction n with
  | zero => intro s t h data; exact MRel.err _
  | succ n ih =>
    intro s t h nodes
    rw [subtreeLevels, subtreeLevels]
    split
    · refine MRel.bind (subtreeLevel_rel ct ct' _ h _) ?_
      rintro ⟨ps, s2⟩ ⟨_, t2⟩ ⟨rfl, h2⟩
      exact ih h2 ps
    · refine MRel.bind (MRel.refl _) ?_
      rintro r _ rfl
      exact MRel.ok ⟨rfl, h⟩

theorem createSubtrees_rel {s : Tree E C} {t : Tree E C'} (h : TreeSame s t) (data : List E) :
    MRel (PairRel Eq TreeSame) (createSubtrees B s data) (createSubtrees B' t data) := by
  rw [createSubtrees, createSubtrees]
  refine MRel.bind (subtreeParents_rel _ h _) ?_
  rintro ⟨ps, s2⟩ ⟨_, t2⟩ ⟨rfl, h2⟩
  exact subtreeLevels_rel ct ct' _ h2 _

end

section
variable (hb : ElemSame B B') (ct : CacheTotal B) (ct' : CacheTotal B')
include hb ct ct'

theorem insertAll_rel : ∀ (es : List E) {s : Tree E C} {t : Tree E C'} (_ : TreeSame s t) (pos : Cursor),
    MRel TreeSame (insertAll B s pos es) (insertAll B' t pos es) := by
  intro es
  induction es with
  | nil => intro s t h pos; exact MRel.ok h
  | cons e es ih =>
    intro s t h pos
    rw [insertAll, insertAll]
    refine MRel.bind (insertByPath_rel hb ct ct' h pos e) ?_
    rintro ⟨⟨p, q⟩, s1⟩ ⟨_, t1⟩ ⟨hp, h1⟩
    cases hp
    exact ih h1 p

theorem insertOne_rel {s : Tree E C} {t : Tree E C'} (h : TreeSame s t) (c : Option Cursor) (e : E) :
    MRel TreeSame (match c with
      | some c => do
        let (_, s) ← insertByPath B s c e
        pure s
      | none => do
        let (_, s) ← push B s e
        pure s) (match c with
      | some c => do
        let (_, s) ← insertByPath B' t c e
        pure s
      | none => do
        let (_, s) ← push B' t e
        pure s) := by
  cases c with
  | some c =>
    refine MRel.bind (insertByPath_rel hb ct ct' h c e) ?_
    rintro ⟨x, s1⟩ ⟨_, t1⟩ ⟨-, h1⟩
    exact MRel.ok h1
  | none =>
    refine MRel.bind (push_rel hb ct ct' h e) ?_
    rintro ⟨x, s1⟩ ⟨_, t1⟩ ⟨-, h1⟩
    exact MRel.ok h1

theorem insertRest_rel {s : Tree E C} {t : Tree E C'} (h : TreeSame s t) (cursor : Option Cursor) (data : List E) :
    MRel TreeSame (do
      let emp ← isEmpty s
      match cursor with
      | none =>
        if emp then do
          let (r, s) ← createSubtrees B s data
          let _ ← s.getIn s.root
          pure { s with inn := s.inn.remove s.root, root := r }
        else .error .panic
      | some c => do
        let (info, s) ← splitLeafIfNeeded B s c
        let (rest, s) ← (match info.leftNeighbour with
          | some l => do
            let leaf ← s.getLf l
            let (e', rest) ← mergeIntoLeft B leaf.elem data
            let s := s.setLf l { leaf with elem := e' }
            let s ← recursiveUpdateCache B s (.leaf l) B.useDiff none
            pure (rest, s)
          | none => pure (data, s) : M (List E × Tree E C))
        insertAll B s (info.newPos.getD c) rest.reverse) (do
      let emp ← isEmpty t
      match cursor with
      | none =>
        if emp then do
          let (r, s) ← createSubtrees B' t data
          let _ ← s.getIn s.root
          pure { s with inn := s.inn.remove s.root, root := r }
        else .error .panic
      | some c => do
        let (info, s) ← splitLeafIfNeeded B' t c
        let (rest, s) ← (match info.leftNeighbour with
          | some l => do
            let leaf ← s.getLf l
            let (e', rest) ← mergeIntoLeft B' leaf.elem data
            let s := s.setLf l { leaf with elem := e' }
            let s ← recursiveUpdateCache B' s (.leaf l) B'.useDiff none
            pure (rest, s)
          | none => pure (data, s) : M (List E × Tree E C'))
        insertAll B' s (info.newPos.getD c) rest.reverse) := by
  rw [isEmpty_rel h]
  refine MRel.bind (MRel.refl _) ?_
  rintro emp _ rfl
  cases cursor with
  | none =>
    simp only []
    split
    · refine MRel.bind (createSubtrees_rel ct ct' h data) ?_
      rintro ⟨r, s1⟩ ⟨_, t1⟩ ⟨rfl, h1⟩
      have h1 : TreeSame s1 t1 := h1
      simp only [← h1.root]
      refine MRel.bind (getIn_rel h1 _) ?_
      intro n n' hn
      have h2 := removeIn_rel h1 s1.root
      exact MRel.ok ⟨h2.len, h2.inn, h2.lf, rfl⟩
    · exact MRel.err _
  | some c =>
    simp only []
    refine MRel.bind (splitLeafIfNeededF_rel hb ct ct' _ h c) ?_
    rintro ⟨info, s1⟩ ⟨_, t1⟩ ⟨rfl, h1⟩
    have h1 : TreeSame s1 t1 := h1
    simp only []
    refine MRel.bind (R := PairRel Eq TreeSame) ?_ ?_
    · cases info.leftNeighbour with
      | none => exact MRel.ok ⟨rfl, h1⟩
      | some l =>
        simp only [getLf_rel h1, mergeIntoLeft_rel hb, hb.useDiff]
        refine MRel.bind (MRel.refl _) ?_
        rintro L _ rfl
        refine MRel.bind (MRel.refl _) ?_
        rintro ⟨e', rest⟩ _ rfl
        refine MRel.bind (recursiveUpdateCache_rel ct ct' (setLf_rel h1 l { L with elem := e' }) _ _ _ _ rfl) ?_
        intro s2 t2 h2
        exact MRel.ok ⟨rfl, h2⟩
    · rintro ⟨rest, s2⟩ ⟨_, t2⟩ ⟨rfl, h2⟩
      exact insertAll_rel hb ct ct' _ h2 _

theorem insertMany_rel {s : Tree E C} {t : Tree E C'} (h : TreeSame s t) (cursor : Option Cursor) (data : List E) :
    MRel TreeSame (insertMany B s cursor data) (insertMany B' t cursor data) := by
  match data with
  | [] => exact MRel.ok h
  | [e] =>
    have := insertOne_rel hb ct ct' h cursor e
    cases cursor <;> exact this
  | d1 :: d2 :: ds =>
    rw [insertMany, insertMany]
    · simp only [mergeAdj_rel hb]
      refine MRel.bind (MRel.refl _) ?_
      rintro data _ rfl
      match data with
      | [] => exact insertRest_rel hb ct ct' h cursor _
      | [e] =>
        have := insertOne_rel hb ct ct' h cursor e
        cases cursor <;> exact this
      | d1 :: d2 :: ds => exact insertRest_rel hb ct ct' h cursor _
    all_goals (intros; simp at *)

omit ct ct' in
theorem updGroups_rel (f : σ → E → Arg → M (σ × E)) (args : List (Nat × Nat × Nat × Arg)) : ∀ (ls : List Nat) (st : σ) {s : Tree E C} {t : Tree E C'} (_ : TreeSame s t)
    {dm : List (Idx × D)} {dm' : List (Idx × D')} (_ : DmSame dm dm') (nw : List (Cursor × List E)),
    MRel (PairRel Eq (PairRel TreeSame (PairRel DmSame Eq))) (updGroups B f args ls st s dm nw) (updGroups B' f args ls st t dm' nw) := by
  intro ls
  induction ls with
  | nil => intro st s t h dm dm' hd nw; exact MRel.ok ⟨rfl, h, hd, rfl⟩
  | cons l ls ih =>
    intro st s t h dm dm' hd nw
    rw [updGroups, updGroups]
    simp only [getLf_rel h, updOneLeaf_rel hb, hb.rleLen]
    refine MRel.bind (MRel.refl _) ?_
    rintro L _ rfl
    refine MRel.bind (MRel.refl _) ?_
    rintro ⟨st1, e, es⟩ _ rfl
    exact ih st1 (setLf_rel h l { L with elem := e }) (hd.insert _ _ _) _

theorem insertChain_rel : ∀ (es : List E) {s : Tree E C} {t : Tree E C'} (_ : TreeSame s t) (cur : Cursor) (out : List Nat),
    MRel (PairRel Eq TreeSame) (insertChain B s cur es out) (insertChain B' t cur es out) := by
  intro es
  induction es with
  | nil => intro s t h cur out; exact MRel.ok ⟨rfl, h⟩
  | cons e es ih =>
    intro s t h cur out
    rw [insertChain, insertChain]
    refine MRel.bind (insertByPath_rel hb ct ct' h cur e) ?_
    rintro ⟨⟨c, sp⟩, s1⟩ ⟨_, t1⟩ ⟨hp, h1⟩
    cases hp
    have h1 : TreeSame s1 t1 := h1
    have hg : getElem s1 c.leaf = getElem t1 c.leaf := by rw [getElem, getElem, h1.lf]
    simp only [hg, hb.rleLen]
    refine MRel.bind (MRel.refl _) ?_
    rintro x _ rfl
    refine MRel.bind (MRel.refl _) ?_
    rintro _ _ -
    exact ih h1 _ _

theorem insertChains_rel : ∀ (nw : List (Cursor × List E)) {s : Tree E C} {t : Tree E C'} (_ : TreeSame s t) (out : List Nat),
    MRel (PairRel Eq TreeSame) (insertChains B s nw out) (insertChains B' t nw out) := by
  intro nw
  induction nw with
  | nil => intro s t h out; exact MRel.ok ⟨rfl, h⟩
  | cons x nw ih =>
    intro s t h out
    obtain ⟨cur, es⟩ := x
    rw [insertChains, insertChains]
    refine MRel.bind (insertChain_rel hb ct ct' es h cur out) ?_
    rintro ⟨o, s1⟩ ⟨_, t1⟩ ⟨rfl, h1⟩
    exact ih h1 o

theorem updateLeavesWithArg_rel (ho : HashOrd E) (f : σ → E → Arg → M (σ × E)) (st : σ) {s : Tree E C} {t : Tree E C'} (h : TreeSame s t)
    (args : List (Nat × Nat × Nat × Arg)) :
    MRel (PairRel Eq (PairRel Eq TreeSame)) (updateLeavesWithArg B ho f st s args) (updateLeavesWithArg B' ho f st t args) := by
  rw [updateLeavesWithArg, updateLeavesWithArg]
  refine MRel.bind (updGroups_rel hb f args _ st h (dm := []) (dm' := []) rfl []) ?_
  rintro ⟨st1, s1, dm, nw⟩ ⟨_, t1, dm', _⟩ ⟨rfl, h1, hd, rfl⟩
  refine MRel.bind (updateDirty_rel ct ct' ho h1 hd) ?_
  intro s2 t2 h2
  refine MRel.bind (insertChains_rel hb ct ct' _ h2 _) ?_
  rintro ⟨o, s3⟩ ⟨_, t3⟩ ⟨rfl, h3⟩
  exact MRel.ok ⟨rfl, rfl, h3⟩

end

end GB

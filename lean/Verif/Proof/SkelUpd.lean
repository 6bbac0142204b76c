import Verif.Proof.SkelDrain

/-!
# `update_leaf` and `update` do not depend on the caches
-/

namespace GB
open Tree
variable {E C C' D D' σ : Type} {B : Trait E C D} {B' : Trait E C' D'}

theorem normalizeUpd_rel (hb : ElemSame B B') (e : E) (n1 n2 : Option E) : normalizeUpd B e n1 n2 = normalizeUpd B' e n1 n2 := by
  simp only [normalizeUpd, hb.canRemove]

section
variable (hb : ElemSame B B') (ct : CacheTotal B) (ct' : CacheTotal B')
include hb ct ct'

/-- both absent, or results that differ in the caches of the tree only -/
def MergedSame (a : Option (Bool × List Nat × Tree E C)) (b : Option (Bool × List Nat × Tree E C')) : Prop :=
  OptRel (PairRel Eq (PairRel Eq TreeSame)) a b

theorem updateLeaf_rel {s : Tree E C} {t : Tree E C'} (h : TreeSame s t) (l : Nat) (f : E → M (E × Bool × Option E × Option E)) :
    MRel (PairRel Eq (PairRel Eq TreeSame)) (updateLeaf B s l f) (updateLeaf B' t l f) := by
  simp only [updateLeaf, getLf_rel h, hb.useDiff, hb.canMerge, hb.mergeLeft, hb.canRemove, normalizeUpd_rel hb]
  refine MRel.bind (MRel.refl _) ?_
  rintro L _ rfl
  refine MRel.bind (MRel.refl _) ?_
  rintro ⟨e0, need, m1, m2⟩ _ rfl
  simp only []
  generalize normalizeUpd B' e0 m1 m2 = r
  obtain ⟨e, n1, n2⟩ := r
  simp only []
  have h0 := setLf_rel h l { L with elem := e }
  refine MRel.bind (R := TreeSame) ?_ ?_
  · split
    · exact recursiveUpdateCache_rel ct ct' h0 _ _ _ _ rfl
    · exact MRel.ok h0
  · intro s1 t1 h1
    split
    · refine MRel.bind (MRel.refl _) ?_
      rintro _ _ rfl
      have h2 := removeLf_rel h1 l
      refine MRel.bind (getIn_rel h2 _) ?_
      intro m m' hm
      rw [getLeafSlot_rel hm.chs]
      refine MRel.bind (MRel.refl _) ?_
      rintro i _ rfl
      refine MRel.bind (vremove_rel hm.chs _) ?_
      rintro ⟨_, cs⟩ ⟨_, cs'⟩ ⟨-, hcs⟩
      have hm2 := hm.withChs hcs
      have h3 := setIn_rel h2 L.parent hm2
      simp only [hm2.isLack]
      refine MRel.bind (R := TreeSame) ?_ ?_
      · split
        · exact handleLack_rel ct ct' h3 _
        · exact MRel.ok h3
      · intro s4 t4 h4
        exact MRel.ok ⟨rfl, rfl, h4⟩
    · cases n1 with
      | none =>
        refine MRel.bind (MRel.refl _) ?_
        rintro _ _ rfl
        exact MRel.ok ⟨rfl, rfl, h1⟩
      | some a =>
        refine MRel.bind (R := MergedSame) ?_ ?_
        · cases n2 with
          | some b => exact MRel.ok .none
          | none =>
            refine MRel.bind (getIn_rel h1 _) ?_
            intro m m' hm
            rw [getLeafSlot_rel hm.chs]
            refine MRel.bind (MRel.refl _) ?_
            rintro i _ rfl
            have := hm.chs.get (i + 1)
            generalize m.children[i + 1]? = a at this
            generalize m'.children[i + 1]? = b at this
            cases this with
            | none => exact MRel.ok .none
            | @some c c' hc =>
              have hc : c.arena = c'.arena := hc
              simp only [getLf_rel h1, hc]
              refine MRel.bind (MRel.refl _) ?_
              rintro nx _ rfl
              split
              · refine MRel.bind (MRel.refl _) ?_
                rintro e' _ rfl
                refine MRel.bind (recursiveUpdateCache_rel ct ct' (setLf_rel h1 _ _) _ _ _ _ rfl) ?_
                intro s2 t2 h2
                exact MRel.ok (.some ⟨rfl, rfl, h2⟩)
              · exact MRel.ok .none
        · intro r r' hr
          cases hr with
          | some hr => exact MRel.ok hr
          | none =>
            simp only []
            refine MRel.bind (getIn_rel h1 _) ?_
            intro m m' hm
            rw [hm.chs.length]
            refine MRel.bind (R := PairRel Eq TreeSame) ?_ ?_
            · split
              · refine MRel.bind (split_rel ct ct' h1 _) ?_
                intro s2 t2 h2
                rw [getLf_rel h2]
                refine MRel.bind (MRel.refl _) ?_
                rintro L2 _ rfl
                exact MRel.ok ⟨rfl, h2⟩
              · exact MRel.ok ⟨rfl, h1⟩
            · rintro ⟨p, s2⟩ ⟨_, t2⟩ ⟨rfl, h2⟩
              have h2 : TreeSame s2 t2 := h2
              simp only []
              refine MRel.bind (getIn_rel h2 _) ?_
              intro q q' hq
              obtain ⟨hc1, h3⟩ := allocLeafChild_rel (B := B) (B' := B') h2 a p
              rw [getLeafSlot_rel hq.chs]
              cases n2 with
              | none =>
                simp only []
                refine MRel.bind (MRel.refl _) ?_
                rintro i _ rfl
                refine MRel.bind (vinsert_rel hq.chs _ hc1) ?_
                intro cs cs' hcs
                simp only [pure_ok, bind_ok]
                have hq2 := hq.withChs hcs
                rw [hq2.isFull]
                refine MRel.bind (MRel.refl _) ?_
                rintro _ _ rfl
                refine MRel.bind (recursiveUpdateCache_rel ct ct' (setIn_rel h3 _ hq2) _ _ _ _ rfl) ?_
                intro s4 t4 h4
                refine MRel.ok ⟨rfl, ?_, h4⟩
                simp only [show _ = _ from hc1, Option.map_none]
              | some b =>
                obtain ⟨hc2, h4⟩ := allocLeafChild_rel (B := B) (B' := B') h3 b p
                simp only []
                refine MRel.bind (MRel.refl _) ?_
                rintro i _ rfl
                refine MRel.bind (vinsert_rel hq.chs _ hc1) ?_
                intro cs cs' hcs
                refine MRel.bind (vinsert_rel hcs _ hc2) ?_
                intro ds ds' hds
                have hq2 := hq.withChs hds
                rw [hq2.isFull]
                refine MRel.bind (MRel.refl _) ?_
                rintro _ _ rfl
                refine MRel.bind (recursiveUpdateCache_rel ct ct' (setIn_rel h4 _ hq2) _ _ _ _ rfl) ?_
                intro s5 t5 h5
                refine MRel.ok ⟨rfl, ?_, h5⟩
                simp only [show _ = _ from hc1, show _ = _ from hc2, Option.map_some]

end

/-- the same keys of a map of differences -/
def DmSame (dm : List (Idx × D)) (dm' : List (Idx × D')) : Prop := dm.map Prod.fst = dm'.map Prod.fst

theorem DmSame.get {dm : List (Idx × D)} {dm' : List (Idx × D')} (h : DmSame dm dm') (k : Idx) : OptRel AnyRel (dmGet dm k) (dmGet dm' k) := by
  induction dm generalizing dm' with
  | nil =>
    cases dm' with
    | nil => exact .none
    | cons => cases h
  | cons x dm ih =>
    cases dm' with
    | nil => cases h
    | cons x' dm' =>
      simp only [DmSame, List.map_cons, List.cons.injEq] at h
      by_cases hx : x.1 = k
      · simp only [dmGet, List.find?_cons, hx, h.1 ▸ hx, decide_true, Option.map_some]
        exact .some trivial
      · have hx' : x'.1 ≠ k := h.1 ▸ hx
        simp only [dmGet, List.find?_cons, hx, hx', decide_false]
        exact ih h.2

theorem DmSame.erase {dm : List (Idx × D)} {dm' : List (Idx × D')} (h : DmSame dm dm') (k : Idx) : DmSame (dmErase dm k) (dmErase dm' k) := by
  have h' : dm.map Prod.fst = dm'.map Prod.fst := h
  have e := congrArg (List.filter fun i => decide (i ≠ k)) h'
  rw [List.filter_map, List.filter_map] at e
  exact e

theorem DmSame.insert {dm : List (Idx × D)} {dm' : List (Idx × D')} (h : DmSame dm dm') (k : Idx) (d : D) (d' : D') :
    DmSame (dmInsert dm k d) (dmInsert dm' k d') := by
  have := h.erase k
  simp only [DmSame, dmInsert, List.map_cons, List.cons.injEq, true_and] at this ⊢
  exact this

theorem DmSame.merge {dm : List (Idx × D)} {dm' : List (Idx × D')} (h : DmSame dm dm') (k : Idx) (d : D) (d' : D') :
    DmSame (dmMerge B dm k d) (dmMerge B' dm' k d') := by
  have hg := h.get k
  rw [dmMerge, dmMerge]
  generalize dmGet dm k = a at hg
  generalize dmGet dm' k = b at hg
  cases hg with
  | none => simp only [DmSame, List.map_cons, List.cons.injEq, true_and]; exact h
  | some _ => simp only [DmSame, List.map_cons, List.cons.injEq, true_and]; exact h.erase k

section
variable (ct : CacheTotal B) (ct' : CacheTotal B')
include ct ct'

theorem applyToChild_rel : ∀ {cs : List (Child C)} {cs' : List (Child C')} (_ : ChsSame cs cs') (k : Idx) (d : D) (d' : D'),
    MRel ChsSame (applyToChild B cs k d) (applyToChild B' cs' k d') := by
  intro cs
  induction cs with
  | nil =>
    intro cs' h k d d'
    cases cs' with
    | nil => exact MRel.ok ChsSame.nil
    | cons => have := h.length; simp at this
  | cons c cs ih =>
    intro cs' h k d d'
    cases cs' with
    | nil => have := h.length; simp at this
    | cons c' cs' =>
      simp only [ChsSame, List.map_cons, List.cons.injEq] at h
      simp only [applyToChild, h.1]
      split
      · refine MRel.bind (apply_rel ct ct' _ _ _ _) ?_
        intro x x' _
        refine MRel.ok ?_
        simp only [ChsSame, List.map_cons, h.1, h.2]
      · refine MRel.bind (ih h.2 k d d') ?_
        intro ds ds' hds
        exact MRel.ok (ChsSame.cons h.1 hds)

theorem calcCache_rel' (n : Node C) (n' : Node C') (c : C) (c' : C') {d : Option D} {d' : Option D'} (h : OptRel AnyRel d d') :
    MRel AnyRel (calcCache B n c d) (calcCache B' n' c' d') := by
  cases h with
  | none => exact calcCache_rel ct ct' _ _ _ _
  | some _ =>
    simp only [calcCache]
    refine MRel.bind (apply_rel ct ct' _ _ _ _) ?_
    intro x x' _
    exact MRel.ok trivial

theorem dirtyStep_rel {s : Tree E C} {t : Tree E C'} (h : TreeSame s t) {dm : List (Idx × D)} {dm' : List (Idx × D')} (hd : DmSame dm dm')
    (visit : List Idx) (k : Idx) :
    MRel (PairRel TreeSame (PairRel DmSame Eq)) (dirtyStep B s dm visit k) (dirtyStep B' t dm' visit k) := by
  cases k with
  | leaf l =>
    simp only [dirtyStep, getLf_rel h]
    refine MRel.bind (MRel.refl _) ?_
    rintro L _ rfl
    refine MRel.bind (getIn_rel h _) ?_
    intro m m' hm
    refine MRel.bind (unwrap_rel (hd.get _)) ?_
    intro d d' _
    refine MRel.bind (applyToChild_rel ct ct' hm.chs _ _ _) ?_
    intro cs cs' hcs
    exact MRel.ok ⟨setIn_rel h _ (hm.withChs hcs), (hd.erase _).merge _ _ _, rfl⟩
  | internal x =>
    simp only [dirtyStep]
    refine MRel.bind (getIn_rel h _) ?_
    intro n n' hn
    rw [hn.parent, hn.slot]
    cases n'.parent with
    | none => exact MRel.ok ⟨h, hd, rfl⟩
    | some p =>
      refine MRel.bind (MRel.refl _) ?_
      rintro _ _ rfl
      refine MRel.bind (getIn_rel h p) ?_
      intro m m' hm
      refine MRel.bind (vget_rel hm.chs _) ?_
      intro ch ch' hch
      refine MRel.bind (calcCache_rel' ct ct' _ _ _ _ (hd.get _)) ?_
      rintro ⟨c, d⟩ ⟨c', d'⟩ _
      exact MRel.ok ⟨setIn_rel h _ (by exact hm.withChs (hm.chs.set _ hch)), (hd.erase _).merge _ _ _, rfl⟩

theorem dirtyLevel_rel : ∀ (ks : List Idx) {s : Tree E C} {t : Tree E C'} (_ : TreeSame s t) {dm : List (Idx × D)} {dm' : List (Idx × D')} (_ : DmSame dm dm')
    (visit : List Idx), MRel (PairRel TreeSame (PairRel DmSame Eq)) (dirtyLevel B s dm visit ks) (dirtyLevel B' t dm' visit ks) := by
  intro ks
  induction ks with
  | nil => intro s t h dm dm' hd visit; exact MRel.ok ⟨h, hd, rfl⟩
  | cons k ks ih =>
    intro s t h dm dm' hd visit
    simp only [dirtyLevel]
    refine MRel.bind (dirtyStep_rel ct ct' h hd visit k) ?_
    rintro ⟨s1, dm1, v1⟩ ⟨t1, dm1', _⟩ ⟨h1, hd1, rfl⟩
    exact ih h1 hd1 _

theorem dirtyF_rel (ho : HashOrd E) : ∀ (n : Nat) {s : Tree E C} {t : Tree E C'} (_ : TreeSame s t) {dm : List (Idx × D)} {dm' : List (Idx × D')} (_ : DmSame dm dm')
    (visit : List Idx), MRel TreeSame (dirtyF B ho n s dm visit) (dirtyF B' ho n t dm' visit) := by
  intro n
  induction n with
  | zero => intro s t h dm dm' hd visit; exact MRel.err _
  | succ n ih =>
    intro s t h dm dm' hd visit
    cases visit with
    | nil => exact MRel.ok h
    | cons v vs =>
      simp only [dirtyF]
      refine MRel.bind (dirtyLevel_rel ct ct' _ h hd []) ?_
      rintro ⟨s1, dm1, v1⟩ ⟨t1, dm1', _⟩ ⟨h1, hd1, rfl⟩
      exact ih h1 hd1 _

theorem updateDirty_rel (ho : HashOrd E) {s : Tree E C} {t : Tree E C'} (h : TreeSame s t) {dm : List (Idx × D)} {dm' : List (Idx × D')} (hd : DmSame dm dm') :
    MRel TreeSame (updateDirty B ho s dm) (updateDirty B' ho t dm') := by
  simp only [updateDirty, h.fuel, show _ = _ from hd]
  refine MRel.bind (dirtyF_rel ct ct' ho _ h hd _) ?_
  intro s1 t1 h1
  exact updateRootCache_rel ct ct' h1

end

/-- the same closure of `update` but for the differences of caches it reports -/
def UpdFnSame (f : σ → E → M (σ × E × Option D)) (f' : σ → E → M (σ × E × Option D')) : Prop :=
  ∀ st e, MRel (PairRel Eq (PairRel Eq (OptRel AnyRel))) (f st e) (f' st e)

section
variable (hb : ElemSame B B') (ct : CacheTotal B) (ct' : CacheTotal B')
include hb

theorem updateF_rel {f : σ → E → M (σ × E × Option D)} {f' : σ → E → M (σ × E × Option D')} (hf : UpdFnSame f f') (stop : Option Nat) :
    ∀ (n : Nat) (st : σ) {s : Tree E C} {t : Tree E C'} (_ : TreeSame s t) (path : List PIdx) (rm : List Nat) {dm : List (Idx × D)} {dm' : List (Idx × D')}
      (_ : DmSame dm dm'),
    MRel (PairRel Eq (PairRel TreeSame (PairRel Eq DmSame))) (updateF B f stop n st s path rm dm) (updateF B' f' stop n st t path rm dm') := by
  intro n
  induction n with
  | zero => intro st s t h path rm dm dm' hd; exact MRel.err _
  | succ n ih =>
    intro st s t h path rm dm dm' hd
    simp only [updateF, getLf_rel h, hb.canRemove]
    refine MRel.bind (MRel.refl _) ?_
    rintro cur _ rfl
    refine MRel.bind (MRel.refl _) ?_
    rintro l _ rfl
    split
    · exact MRel.ok ⟨rfl, h, rfl, hd⟩
    · refine MRel.bind (MRel.refl _) ?_
      rintro L _ rfl
      refine MRel.bind (hf st L.elem) ?_
      rintro ⟨st1, e, d⟩ ⟨_, _, d'⟩ ⟨rfl, rfl, hdd⟩
      have h1 := setLf_rel h l { L with elem := e }
      have hd1 : DmSame (match d with | some d => dmInsert dm (.leaf l) d | none => dm) (match d' with | some d => dmInsert dm' (.leaf l) d | none => dm') := by
        simp only [] at hdd
        cases hdd with
        | none => exact hd
        | some _ => exact hd.insert _ _ _
      refine MRel.bind (nextSibling_rel h1 path) ?_
      rintro r _ rfl
      cases r with
      | none => exact MRel.ok ⟨rfl, h1, rfl, hd1⟩
      | some p => exact ih st1 h1 p _ hd1

include ct ct'

theorem removeAll_rel : ∀ (ls : List Nat) {s : Tree E C} {t : Tree E C'} (_ : TreeSame s t), MRel TreeSame (removeAll B s ls) (removeAll B' t ls) := by
  intro ls
  induction ls with
  | nil => intro s t h; exact MRel.ok h
  | cons l ls ih =>
    intro s t h
    refine MRel.bind (removeLeaf_rel hb ct ct' h _) ?_
    rintro ⟨r, s1⟩ ⟨_, t1⟩ ⟨rfl, h1⟩
    exact ih h1

theorem update_rel (ho : HashOrd E) {f : σ → E → M (σ × E × Option D)} {f' : σ → E → M (σ × E × Option D')} (hf : UpdFnSame f f') (st : σ)
    {s : Tree E C} {t : Tree E C'} (h : TreeSame s t) (a b : Cursor) :
    MRel (PairRel Eq (PairRel Eq TreeSame)) (update B ho f st s a b) (update B' ho f' st t a b) := by
  simp only [update]
  refine MRel.bind (splitLeafIfNeededF_rel hb ct ct' _ h _) ?_
  rintro ⟨ei, s1⟩ ⟨_, t1⟩ ⟨rfl, h1⟩
  have h1 : TreeSame s1 t1 := h1
  refine MRel.bind (splitLeafIfNeededF_rel hb ct ct' _ h1 _) ?_
  rintro ⟨si, s2⟩ ⟨_, t2⟩ ⟨rfl, h2⟩
  have h2 : TreeSame s2 t2 := h2
  simp only []
  cases si.newPos with
  | none => exact MRel.ok ⟨rfl, rfl, h2⟩
  | some start =>
    have hf' : leafFuel s2 = leafFuel t2 := by rw [leafFuel, leafFuel, h2.len, h2.lf]
    simp only [hf']
    refine MRel.bind (getPath_rel h2 _) ?_
    rintro p _ rfl
    refine MRel.bind (updateF_rel hb hf _ _ _ h2 _ _ (dm := []) (dm' := []) rfl) ?_
    rintro ⟨st1, s3, rm, dm⟩ ⟨_, t3, _, dm'⟩ ⟨rfl, h3, rfl, hd⟩
    have h3 : TreeSame s3 t3 := h3
    have hd : DmSame dm dm' := hd
    refine MRel.bind (R := TreeSame) ?_ ?_
    · cases dm with
      | nil =>
        cases dm' with
        | nil => exact updateRootCache_rel ct ct' h3
        | cons => cases hd
      | cons x dm =>
        cases dm' with
        | nil => cases hd
        | cons x' dm' => exact updateDirty_rel ct ct' ho h3 hd
    · intro s4 t4 h4
      refine MRel.bind (removeAll_rel hb ct ct' _ h4) ?_
      intro s5 t5 h5
      exact MRel.ok ⟨rfl, rfl, h5⟩

end

end GB

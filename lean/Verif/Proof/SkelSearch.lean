import Verif.Proof.SkelSound
import Verif.Proof.SkelDel
import Verif.Props.C22

/-!
# `update_leaf_by_search` does not depend on the caches, apart from the way the finder goes
-/

namespace GB
open Tree
variable {E C C' D D' Q F : Type} {B : Trait E C D} {B' : Trait E C' D'}

/-- the finder that goes the same way in a copy of the tree `s` with other caches as `q` goes in `s`: it remembers the node of `s` it is at -/
def shadow (s : Tree E C) (q : Query E C Q F) : Query E C' Q (F × Nat) where
  init := fun arg => (q.init arg, s.root)
  findNode := fun fd arg _ => do
    let n ← s.getIn fd.2
    let (r, f) ← q.findNode fd.1 arg n.children
    pure (r, (f, ((n.children[r.index]?).map fun c => c.arena.raw).getD 0))
  confirm := fun fd arg e => do
    let (a, f) ← q.confirm fd.1 arg e
    pure (a, (f, 0))

theorem getIn_self {s : Tree E C} {t : Tree E C'} (h : TreeSame s t) (x : Nat) :
    MRel (fun n n' => NodeSame n n' ∧ s.getIn x = .ok n) (s.getIn x) (t.getIn x) := by
  have := getIn_rel h x
  generalize t.getIn x = b at this
  generalize hs : s.getIn x = a at this
  cases this with
  | ok h => exact MRel.ok ⟨h, rfl⟩
  | err e => exact MRel.err e

theorem vget_self {cs : List (Child C)} {cs' : List (Child C')} (h : ChsSame cs cs') (i : Nat) :
    MRel (fun c c' => ChSame c c' ∧ cs[i]? = some c) (vget cs i) (vget cs' i) := by
  have := h.get i
  simp only [vget]
  generalize cs'[i]? = b at this
  generalize hs : cs[i]? = a at this
  cases this with
  | none => exact MRel.err _
  | some h => exact MRel.ok ⟨h, rfl⟩

theorem shadow_find {s : Tree E C} {x : Nat} {n : Node C} (hn : s.getIn x = .ok n) (q : Query E C Q F) (fd : F) (arg : Q) (cs : List (Child C')) :
    MRel (fun a b => a.1 = b.1 ∧ b.2 = (a.2, ((n.children[a.1.index]?).map fun c => c.arena.raw).getD 0))
      (q.findNode fd arg n.children) ((shadow (C' := C') s q).findNode (fd, x) arg cs) := by
  simp only [shadow, hn, bind_ok]
  cases q.findNode fd arg n.children with
  | error e => exact MRel.err e
  | ok r => exact MRel.ok ⟨rfl, rfl⟩

theorem shadow_confirm (s : Tree E C) (q : Query E C Q F) (fd : F) (x : Nat) (arg : Q) (e : E) :
    MRel (fun a b => a.1 = b.1) (q.confirm fd arg e) ((shadow (C' := C') s q).confirm (fd, x) arg e) := by
  simp only [shadow]
  cases q.confirm fd arg e with
  | error e => exact MRel.err e
  | ok r => exact MRel.ok rfl

theorem shadow_queryF {s : Tree E C} {t : Tree E C'} (h : TreeSame s t) (q : Query E C Q F) (arg : Q) :
    ∀ (n x : Nat) (fd : F) (found : Bool),
      MRel (fun a b => a.1 = b.1) (queryF q arg n s x fd found) (queryF (shadow s q) arg n t x (fd, x) found) := by
  intro n
  induction n with
  | zero => intro x fd found; exact MRel.err _
  | succ n ih =>
    intro x fd found
    rw [queryF, queryF]
    refine MRel.bind (getIn_self h x) ?_
    rintro N N' ⟨hN, hx⟩
    refine MRel.bind (shadow_find hx q fd arg N'.children) ?_
    rintro ⟨r, fd1⟩ ⟨r', fd2⟩ ⟨h1, h2⟩
    have h1 : r = r' := h1
    have h2 : fd2 = (fd1, ((N.children[r.index]?).map fun c => c.arena.raw).getD 0) := h2
    subst h1 h2
    simp only [hN.isEmpty]
    refine MRel.bind (MRel.refl _) ?_
    rintro _ _ -
    refine MRel.bind (vget_self hN.chs r.index) ?_
    rintro c c' ⟨hc, hg⟩
    have hc : c.arena = c'.arena := hc
    rw [← hc, hg]
    cases ha : c.arena with
    | internal y =>
      simp only [Option.map_some, Option.getD_some, ha, Idx.raw]
      exact ih y fd1 _
    | leaf l =>
      simp only [getLf_rel h]
      refine MRel.bind (MRel.refl _) ?_
      rintro L _ rfl
      refine MRel.bind (shadow_confirm s q fd1 _ arg L.elem) ?_
      rintro ⟨⟨o, f⟩, fd3⟩ ⟨⟨o', f'⟩, fd4⟩ h3
      have h3 : (o, f) = (o', f') := h3
      cases h3
      exact MRel.ok rfl

theorem shadow_query {s : Tree E C} {t : Tree E C'} (h : TreeSame s t) (q : Query E C Q F) (arg : Q) :
    query (shadow s q) t arg = query q s arg := by
  have : MRel Eq (query q s arg) (query (shadow s q) t arg) := by
    simp only [query, queryWithFinder, isEmpty_rel h, h.fuel, ← h.root]
    refine MRel.bind (R := fun a b => a.1 = b.1) ?_ ?_
    · refine MRel.bind (MRel.refl _) ?_
      rintro b _ rfl
      split
      · exact MRel.ok rfl
      · refine MRel.bind (shadow_queryF h q arg _ _ _ _) ?_
        rintro ⟨r, fd⟩ ⟨_, fd'⟩ rfl
        exact MRel.ok rfl
    · rintro ⟨r, fd⟩ ⟨_, fd'⟩ rfl
      exact MRel.ok rfl
  revert this
  generalize query (shadow s q) t arg = b
  generalize query q s arg = a
  intro this
  cases this with
  | ok h => rw [h]
  | err e => rfl

theorem shadow_path {s : Tree E C} {t : Tree E C'} (h : TreeSame s t) (q : Query E C Q F) (arg : Q) :
    ∀ (n : Nat) (idx : Idx) (arr : Nat) (path : List PIdx) (fd : F) (x : Nat), (∀ y, idx = .internal y → x = y) →
      MRel (fun a b => a.1 = b.1 ∧ a.2.1 = b.2.1 ∧ a.2.2.1 = b.2.2.1 ∧ a.2.2.2 = b.2.2.2.1)
        (searchPathF q arg n s idx arr path fd) (searchPathF (shadow s q) arg n t idx arr path (fd, x)) := by
  intro n
  induction n with
  | zero => intros; exact MRel.err _
  | succ n ih =>
    intro idx arr path fd x hx
    rw [searchPathF.eq_def, searchPathF.eq_def]
    cases idx with
    | leaf l => exact MRel.ok ⟨rfl, rfl, rfl, rfl⟩
    | internal y =>
      obtain rfl := hx y rfl
      simp only []
      refine MRel.bind (MRel.refl _) ?_
      rintro p _ rfl
      refine MRel.bind (getIn_self h x) ?_
      rintro N N' ⟨hN, hx⟩
      refine MRel.bind (shadow_find hx q fd arg N'.children) ?_
      rintro ⟨r, fd1⟩ ⟨r', fd2⟩ ⟨h1, h2⟩
      have h1 : r = r' := h1
      have h2 : fd2 = (fd1, ((N.children[r.index]?).map fun c => c.arena.raw).getD 0) := h2
      subst h1 h2
      refine MRel.bind (vget_self hN.chs r.index) ?_
      rintro c c' ⟨hc, hg⟩
      have hc : c.arena = c'.arena := hc
      simp only [← hc, hg]
      refine ih _ _ _ _ _ ?_
      intro y hy
      simp only [Option.map_some, Option.getD_some, hy, Idx.raw]

/-- the same new child but for the caches -/
def NewSame (a : Option (C × Child C)) (b : Option (C' × Child C')) : Prop := OptRel (PairRel AnyRel ChSame) a b

/-- closures for `update_leaf_by_search` that differ in the cache differences only -/
def SearchFnSame (f : E → QueryResult → M (E × Option (D × Option E × Option E))) (g : E → QueryResult → M (E × Option (D' × Option E × Option E))) : Prop :=
  ∀ e a, MRel (PairRel Eq (OptRel (PairRel AnyRel Eq))) (f e a) (g e a)

section
variable (ct : CacheTotal B) (ct' : CacheTotal B')
include ct ct'

theorem searchDelF_rel (d : D) (d' : D') : ∀ (path : List PIdx) {s : Tree E C} {t : Tree E C'} (_ : TreeSame s t) (isFirst lack : Bool) (child : Idx) (arr : Nat),
    MRel (PairRel Eq TreeSame) (searchDelF B d s path isFirst lack child arr) (searchDelF B' d' t path isFirst lack child arr) := by
  intro path
  induction path with
  | nil => intro s t h isFirst lack child arr; exact MRel.ok ⟨rfl, h⟩
  | cons pi rest ih =>
    intro s t h isFirst lack child arr
    rw [searchDelF, searchDelF]
    refine MRel.bind (MRel.refl _) ?_
    rintro p _ rfl
    refine MRel.bind (getIn_rel h p) ?_
    intro n n' hn
    refine MRel.bind (R := ChsSame) ?_ ?_
    · split
      · refine MRel.bind (vremove_rel hn.chs arr) ?_
        rintro ⟨_, cs⟩ ⟨_, cs'⟩ ⟨-, hcs⟩
        exact MRel.ok hcs
      · refine MRel.bind (vget_rel hn.chs arr) ?_
        intro c c' hc
        refine MRel.bind (apply_rel ct ct' _ _ _ _) ?_
        intro a b _
        exact MRel.ok (hn.chs.set arr hc)
    · intro cs cs' hcs
      have hn2 := hn.withChs hcs
      have h1 := setIn_rel h p hn2
      simp only [hn2.isLack]
      refine MRel.bind (R := TreeSame) ?_ ?_
      · split
        · refine MRel.bind (MRel.refl _) ?_
          rintro x _ rfl
          refine MRel.bind (handleLackSingle_rel ct ct' h1 x) ?_
          rintro ⟨_, s2⟩ ⟨_, t2⟩ ⟨-, h2⟩
          exact MRel.ok h2
        · exact MRel.ok h1
      · intro s2 t2 h2
        exact ih h2 _ _ _ _

theorem searchInsF_rel (d : D) (d' : D') : ∀ (path : List PIdx) {s : Tree E C} {t : Tree E C'} (_ : TreeSame s t) {nc : Option (C × Child C)}
    {nc' : Option (C' × Child C')} (_ : NewSame nc nc') (arr : Nat),
    MRel (PairRel NewSame TreeSame) (searchInsF B d s path nc arr) (searchInsF B' d' t path nc' arr) := by
  intro path
  induction path with
  | nil => intro s t h nc nc' hnc arr; exact MRel.ok ⟨hnc, h⟩
  | cons pi rest ih =>
    intro s t h nc nc' hnc arr
    rw [searchInsF.eq_def, searchInsF.eq_def]
    simp only []
    refine MRel.bind (MRel.refl _) ?_
    rintro p _ rfl
    refine MRel.bind (getIn_rel h p) ?_
    intro n n' hn
    cases hnc with
    | none =>
      simp only []
      refine MRel.bind (vget_rel hn.chs arr) ?_
      intro c c' hc
      refine MRel.bind (apply_rel ct ct' _ _ _ _) ?_
      intro a b _
      exact ih (setIn_rel h p (hn.withChs (hn.chs.set arr (c := { c with cache := a }) (c' := { c' with cache := b }) hc))) .none _
    | @some a b hab =>
      obtain ⟨ca, ch⟩ := a
      obtain ⟨ca', ch'⟩ := b
      have hch : ChSame ch ch' := hab.2
      simp only []
      refine MRel.bind (vget_rel hn.chs arr) ?_
      intro c c' hc
      refine MRel.bind (vinsert_rel (hn.chs.set arr (c := { c with cache := ca }) (c' := { c' with cache := ca' }) hc) _ hch) ?_
      intro cs cs' hcs
      have hn2 := hn.withChs hcs
      have h1 := setIn_rel h p hn2
      simp only [hn2.isChildLeaf, hn2.isFull]
      refine MRel.bind (R := TreeSame) ?_ ?_
      · split
        · exact MRel.ok h1
        · exact updSlotsFrom_rel h1 _ _
      · intro s2 t2 h2
        split
        · refine MRel.bind (splitNode_rel ct ct' h2 p) ?_
          rintro ⟨⟨_, _, k, r⟩, s3⟩ ⟨⟨_, _, k', r'⟩, t3⟩ ⟨-, -, hr, h3⟩
          exact ih h3 (.some ⟨trivial, hr⟩) _
        · exact ih h2 .none _

theorem updateLeafBySearch_rel (hb : ElemSame B B') {s : Tree E C} {t : Tree E C'} (h : TreeSame s t) (q : Query E C Q F) (arg : Q)
    {f : E → QueryResult → M (E × Option (D × Option E × Option E))} {g : E → QueryResult → M (E × Option (D' × Option E × Option E))} (hf : SearchFnSame f g) :
    MRel (PairRel Eq (PairRel Eq TreeSame)) (updateLeafBySearch B q s arg f) (updateLeafBySearch B' (shadow s q) t arg g) := by
  simp only [updateLeafBySearch, isEmpty_rel h, h.fuel, ← h.root, hb.canRemove]
  refine MRel.bind (MRel.refl _) ?_
  rintro b _ rfl
  split
  · exact MRel.err _
  refine MRel.bind (shadow_path h q arg _ _ _ _ _ _ (fun y hy => by cases hy; rfl)) ?_
  rintro ⟨l, arr, path, fd⟩ ⟨_, _, _, ⟨_, x⟩⟩ ⟨rfl, rfl, rfl, rfl⟩
  simp only [getLf_rel h]
  refine MRel.bind (MRel.refl _) ?_
  rintro L _ rfl
  refine MRel.bind (shadow_confirm s q fd x arg L.elem) ?_
  rintro ⟨⟨o, f⟩, fd3⟩ ⟨⟨o', f'⟩, fd4⟩ h3
  have h3 : (o, f) = (o', f') := h3
  cases h3
  simp only []
  refine MRel.bind (hf _ _) ?_
  rintro ⟨e, r⟩ ⟨_, r'⟩ ⟨rfl, hr⟩
  have h1 := setLf_rel h l { L with elem := e }
  cases hr with
  | none => exact MRel.ok ⟨rfl, rfl, h1⟩
  | @some a b hab =>
    obtain ⟨d, n1, n2⟩ := a
    obtain ⟨d', _, _⟩ := b
    obtain ⟨-, hab⟩ := hab
    cases hab
    cases n2 with
    | some n2 => exact MRel.err _
    | none =>
      simp only []
      split
      · refine MRel.bind (MRel.refl _) ?_
        rintro _ _ -
        refine MRel.bind (searchDelF_rel ct ct' d d' path (removeLf_rel h1 l) _ _ _ _) ?_
        rintro ⟨k, s2⟩ ⟨_, t2⟩ ⟨rfl, h2⟩
        have h2 : TreeSame s2 t2 := h2
        simp only []
        refine MRel.bind (apply_rel ct ct' _ _ _ _) ?_
        intro a b _
        have h3 := rootCache_rel h2 a b
        simp only [← h2.root]
        refine MRel.bind (getIn_rel h3 s2.root) ?_
        intro n n' hn
        simp only [hn.chs.length, hn.isChildLeaf]
        refine MRel.bind (R := TreeSame) ?_ ?_
        · split
          · have := tryReduceLevels_rel h3
            simpa only [← h2.root] using this
          · rw [show t2.root = s2.root from h2.root.symm] at h3
            exact MRel.ok h3
        · intro s4 t4 h4
          exact MRel.ok ⟨rfl, rfl, h4⟩
      · refine MRel.bind (R := PairRel NewSame (PairRel Eq TreeSame)) ?_ ?_
        · cases n1 with
          | none => exact MRel.ok ⟨.none, rfl, h1⟩
          | some a =>
            refine MRel.bind (MRel.refl _) ?_
            rintro top _ rfl
            obtain ⟨k1, k2⟩ := allocLeafChild_rel (B := B) (B' := B') h1 a top.arena.raw
            generalize allocLeafChild B _ _ _ = y at k1 k2
            generalize allocLeafChild B' _ _ _ = y' at k1 k2
            obtain ⟨y1, y2⟩ := y
            obtain ⟨y1', y2'⟩ := y'
            have e1 : y1.arena = y1'.arena := k1
            simp only [e1]
            exact MRel.ok ⟨.some ⟨trivial, k1⟩, rfl, k2⟩
        · rintro ⟨nc, spl, s2⟩ ⟨nc', _, t2⟩ ⟨hnc, rfl, h2⟩
          refine MRel.bind (searchInsF_rel ct ct' d d' path h2 hnc arr) ?_
          rintro ⟨nc, s3⟩ ⟨nc', t3⟩ ⟨hnc, h3⟩
          have hnc : NewSame nc nc' := hnc
          have h3 : TreeSame s3 t3 := h3
          cases hnc with
          | none =>
            simp only []
            refine MRel.bind (apply_rel ct ct' _ _ _ _) ?_
            intro a b _
            exact MRel.ok ⟨rfl, rfl, rootCache_rel h3 a b⟩
          | @some a b hab =>
            obtain ⟨ca, ch⟩ := a
            obtain ⟨ca', ch'⟩ := b
            simp only []
            refine MRel.bind (splitRoot_rel ct ct' h3 ca ca' hab.2) ?_
            intro s4 t4 h4
            exact MRel.ok ⟨rfl, rfl, h4⟩

end

/-- the closure without its cache differences -/
def bareSearchFn (f : E → QueryResult → M (E × Option (D × Option E × Option E))) : E → QueryResult → M (E × Option (Unit × Option E × Option E)) :=
  fun e a => do
    let (e', r) ← f e a
    pure (e', r.map fun x => ((), x.2))

theorem bareSearchFn_same (f : E → QueryResult → M (E × Option (D × Option E × Option E))) : SearchFnSame f (bareSearchFn f) := by
  intro e a
  simp only [bareSearchFn]
  cases f e a with
  | error e => exact MRel.err e
  | ok r =>
    obtain ⟨e', r⟩ := r
    cases r with
    | none => exact MRel.ok ⟨rfl, .none⟩
    | some x => exact MRel.ok ⟨rfl, .some ⟨trivial, rfl⟩⟩

end GB

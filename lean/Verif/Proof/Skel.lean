import Verif.Spec.Skel
import Verif.Proof.Arena
import Verif.Proof.Util

/-!
# The operations do not depend on the caches
-/

namespace GB
open Tree
variable {E C C' D D' : Type}

/-! ## Relations -/

section
variable {α β γ δ : Type} {R : α → β → Prop} {S : γ → δ → Prop}

theorem MRel.bind {x : M α} {y : M β} {f : α → M γ} {g : β → M δ} (h : MRel R x y) (k : ∀ a b, R a b → MRel S (f a) (g b)) :
    MRel S (x >>= f) (y >>= g) := by
  cases h with
  | ok h => exact k _ _ h
  | err e => exact MRel.err e

theorem MRel.pure {a : α} {b : β} (h : R a b) : MRel R (Pure.pure a) (Pure.pure b) := MRel.ok h

theorem MRel.refl (x : M α) : MRel Eq x x := by
  cases x with
  | ok a => exact MRel.ok rfl
  | error e => exact MRel.err e

theorem MRel.imp {R' : α → β → Prop} {x : M α} {y : M β} (h : MRel R x y) (k : ∀ a b, R a b → R' a b) : MRel R' x y := by
  cases h with
  | ok h => exact MRel.ok (k _ _ h)
  | err e => exact MRel.err e

theorem unwrap_rel {a : Option α} {b : Option β} (h : OptRel R a b) : MRel R (unwrap a) (unwrap b) := by
  cases h with
  | none => exact MRel.err _
  | some h => exact MRel.ok h

end

/-- pairs of related things -/
def PairRel {α β γ δ : Type} (R : α → β → Prop) (S : γ → δ → Prop) (a : α × γ) (b : β × δ) : Prop := R a.1 b.1 ∧ S a.2 b.2

/-- the same child but for the cache -/
def ChSame (c : Child C) (c' : Child C') : Prop := c.arena = c'.arena

/-- the same children but for the caches -/
def ChsSame (cs : List (Child C)) (cs' : List (Child C')) : Prop := cs.map Child.arena = cs'.map Child.arena

section
variable {cs ds : List (Child C)} {cs' ds' : List (Child C')}

theorem ChsSame.length (h : ChsSame cs cs') : cs.length = cs'.length := by
  have := congrArg List.length h
  simpa using this

theorem ChsSame.nil : ChsSame ([] : List (Child C)) ([] : List (Child C')) := rfl

theorem ChsSame.cons {c : Child C} {c' : Child C'} (h : ChSame c c') (hs : ChsSame cs cs') : ChsSame (c :: cs) (c' :: cs') := by
  simp only [ChsSame, List.map_cons]
  rw [show c.arena = c'.arena from h, show cs.map Child.arena = cs'.map Child.arena from hs]

theorem ChsSame.append (h : ChsSame cs cs') (h2 : ChsSame ds ds') : ChsSame (cs ++ ds) (cs' ++ ds') := by
  simp only [ChsSame, List.map_append] at *
  rw [h, h2]

theorem ChsSame.take (h : ChsSame cs cs') (n : Nat) : ChsSame (cs.take n) (cs'.take n) := by
  simp only [ChsSame, List.map_take] at *
  rw [h]

theorem ChsSame.drop (h : ChsSame cs cs') (n : Nat) : ChsSame (cs.drop n) (cs'.drop n) := by
  simp only [ChsSame, List.map_drop] at *
  rw [h]

theorem ChsSame.eraseIdx (h : ChsSame cs cs') (n : Nat) : ChsSame (cs.eraseIdx n) (cs'.eraseIdx n) := by
  rw [List.eraseIdx_eq_take_drop_succ, List.eraseIdx_eq_take_drop_succ]
  exact (h.take n).append (h.drop _)

theorem ChsSame.set (h : ChsSame cs cs') (n : Nat) {c : Child C} {c' : Child C'} (hc : ChSame c c') : ChsSame (cs.set n c) (cs'.set n c') := by
  simp only [ChsSame, List.map_set] at *
  rw [h, show c.arena = c'.arena from hc]

theorem ChsSame.get (h : ChsSame cs cs') (i : Nat) : OptRel ChSame cs[i]? cs'[i]? := by
  have := congrArg (fun l => l[i]?) h
  simp only [List.getElem?_map] at this
  cases h1 : cs[i]? with
  | none =>
    cases h2 : cs'[i]? with
    | none => exact OptRel.none
    | some b => rw [h1, h2] at this; simp at this
  | some a =>
    cases h2 : cs'[i]? with
    | none => rw [h1, h2] at this; simp at this
    | some b => rw [h1, h2] at this; exact OptRel.some (show a.arena = b.arena by simpa using this)

theorem ChsSame.head (h : ChsSame cs cs') : OptRel ChSame cs.head? cs'.head? := by
  rw [List.head?_eq_getElem?, List.head?_eq_getElem?]
  exact h.get 0

theorem ChsSame.last (h : ChsSame cs cs') : OptRel ChSame cs.getLast? cs'.getLast? := by
  rw [List.getLast?_eq_getElem?, List.getLast?_eq_getElem?, h.length]
  exact h.get _

theorem ChsSame.findIdx (h : ChsSame cs cs') (p : Idx → Bool) :
    cs.findIdx? (fun c => p c.arena) = cs'.findIdx? (fun c => p c.arena) := by
  have e1 : (cs.map Child.arena).findIdx? p = cs.findIdx? (fun c => p c.arena) := by
    rw [List.findIdx?_map]; rfl
  have e2 : (cs'.map Child.arena).findIdx? p = cs'.findIdx? (fun c => p c.arena) := by
    rw [List.findIdx?_map]; rfl
  rw [← e1, ← e2, show cs.map Child.arena = cs'.map Child.arena from h]

theorem vget_rel (h : ChsSame cs cs') (i : Nat) : MRel ChSame (vget cs i) (vget cs' i) := unwrap_rel (h.get i)

theorem vpush_rel (h : ChsSame cs cs') {c : Child C} {c' : Child C'} (hc : ChSame c c') : MRel ChsSame (vpush cs c) (vpush cs' c') := by
  rw [vpush, vpush, h.length]
  split
  · exact MRel.ok (h.append (ChsSame.cons hc ChsSame.nil))
  · exact MRel.err _

theorem vinsert_rel (h : ChsSame cs cs') (i : Nat) {c : Child C} {c' : Child C'} (hc : ChSame c c') :
    MRel ChsSame (vinsert cs i c) (vinsert cs' i c') := by
  rw [vinsert, vinsert, h.length]
  split
  · exact MRel.ok ((h.take i).append (ChsSame.cons hc (h.drop i)))
  · exact MRel.err _

theorem vremove_rel (h : ChsSame cs cs') (i : Nat) : MRel (PairRel ChSame ChsSame) (vremove cs i) (vremove cs' i) := by
  rw [vremove, vremove]
  have := h.get i
  cases h1 : cs[i]? with
  | none =>
    rw [h1] at this
    generalize cs'[i]? = z at this
    cases this
    exact MRel.err _
  | some a =>
    rw [h1] at this
    generalize cs'[i]? = z at this
    cases this with
    | some hh => exact MRel.ok ⟨hh, h.eraseIdx i⟩

theorem getLeafSlot_rel (h : ChsSame cs cs') (l : Nat) : getLeafSlot cs l = getLeafSlot cs' l := by
  induction cs generalizing cs' with
  | nil =>
    cases cs' with
    | nil => rfl
    | cons => have := h.length; simp at this
  | cons c cs ih =>
    cases cs' with
    | nil => have := h.length; simp at this
    | cons c' cs' =>
      simp only [ChsSame, List.map_cons, List.cons.injEq] at h
      simp only [getLeafSlot]
      rw [h.1, ih h.2]

theorem reparentEntries_rel (h : ChsSame cs cs') (p i : Nat) : reparentEntries cs p i = reparentEntries cs' p i := by
  induction cs generalizing cs' i with
  | nil =>
    cases cs' with
    | nil => rfl
    | cons => have := h.length; simp at this
  | cons c cs ih =>
    cases cs' with
    | nil => have := h.length; simp at this
    | cons c' cs' =>
      simp only [ChsSame, List.map_cons, List.cons.injEq] at h
      simp only [reparentEntries]
      rw [h.1, ih h.2]

end

/-! ## Nodes -/

section
variable {n : Node C} {n' : Node C'}

theorem NodeSame.chs (h : NodeSame n n') : ChsSame n.children n'.children := h.kids
theorem NodeSame.isFull (h : NodeSame n n') : n.isFull = n'.isFull := by rw [Node.isFull, Node.isFull, h.chs.length]
theorem NodeSame.isLack (h : NodeSame n n') : n.isLack = n'.isLack := by rw [Node.isLack, Node.isLack, h.chs.length]
theorem NodeSame.isEmpty (h : NodeSame n n') : n.isEmpty = n'.isEmpty := by rw [Node.isEmpty, Node.isEmpty, h.chs.length]
theorem NodeSame.isChildLeaf (h : NodeSame n n') : n.isChildLeaf = n'.isChildLeaf := by
  have h1 := h.kids
  rw [Node.isChildLeaf, Node.isChildLeaf]
  cases hn : n.children with
  | nil =>
    cases hn' : n'.children with
    | nil => rfl
    | cons => rw [hn, hn'] at h1; simp at h1
  | cons c cs =>
    cases hn' : n'.children with
    | nil => rw [hn, hn'] at h1; simp at h1
    | cons c' cs' =>
      rw [hn, hn'] at h1
      simp only [List.map_cons, List.cons.injEq] at h1
      simp only [h1.1]

theorem NodeSame.withChs (h : NodeSame n n') {cs : List (Child C)} {cs' : List (Child C')} (hc : ChsSame cs cs') :
    NodeSame { n with children := cs } { n' with children := cs' } := ⟨h.parent, h.slot, hc⟩

end

/-! ## Trees -/

section
variable {s : Tree E C} {t : Tree E C'}

theorem TreeSame.fuel (h : TreeSame s t) : s.fuel = t.fuel := by rw [Tree.fuel, Tree.fuel, h.len]

theorem getIn_rel (h : TreeSame s t) (x : Nat) : MRel NodeSame (s.getIn x) (t.getIn x) := unwrap_rel (h.inn x)

theorem getLf_rel (h : TreeSame s t) (l : Nat) : s.getLf l = t.getLf l := by rw [Tree.getLf, Tree.getLf, h.lf]

theorem getInIdx_rel (h : TreeSame s t) (x : Idx) : MRel NodeSame (s.getInIdx x) (t.getInIdx x) := by
  cases x with
  | leaf l => exact MRel.err _
  | internal x => exact getIn_rel h x

theorem setIn_rel (h : TreeSame s t) (x : Nat) {n : Node C} {n' : Node C'} (hn : NodeSame n n') : TreeSame (s.setIn x n) (t.setIn x n') := by
  refine ⟨by simp [setIn, h.len], ?_, h.lf, h.root⟩
  intro y
  simp only [setIn, Arena.get_set, h.len]
  split
  · exact OptRel.some hn
  · exact h.inn y

theorem setLf_rel (h : TreeSame s t) (l : Nat) (L : LeafNode E) : TreeSame (s.setLf l L) (t.setLf l L) := by
  refine ⟨h.len, h.inn, ?_, h.root⟩
  simp only [setLf, h.lf]

theorem rootCache_rel (h : TreeSame s t) (c : C) (c' : C') : TreeSame { s with rootCache := c } { t with rootCache := c' } :=
  ⟨h.len, h.inn, h.lf, h.root⟩

theorem removeIn_rel (h : TreeSame s t) (x : Nat) : TreeSame { s with inn := s.inn.remove x } { t with inn := t.inn.remove x } := by
  refine ⟨by simp [h.len], ?_, h.lf, h.root⟩
  intro y
  simp only [Arena.get_remove]
  split
  · exact OptRel.none
  · exact h.inn y

theorem removeLf_rel (h : TreeSame s t) (l : Nat) : TreeSame { s with lf := s.lf.remove l } { t with lf := t.lf.remove l } :=
  ⟨h.len, h.inn, by simp only [h.lf], h.root⟩

theorem insertIn_rel (h : TreeSame s t) {n : Node C} {n' : Node C'} (hn : NodeSame n n') :
    (s.inn.insert n).1 = (t.inn.insert n').1 ∧ TreeSame { s with inn := (s.inn.insert n).2 } { t with inn := (t.inn.insert n').2 } := by
  refine ⟨by simp [Arena.insert_fst, h.len], by simp [h.len], ?_, h.lf, h.root⟩
  intro y
  simp only [Arena.get_insert, h.len]
  split
  · exact OptRel.some hn
  · exact h.inn y

theorem isEmpty_rel (h : TreeSame s t) : isEmpty s = isEmpty t := by
  have := getIn_rel h s.root
  rw [GB.isEmpty, GB.isEmpty, ← h.root]
  generalize s.getIn s.root = a at this
  generalize t.getIn s.root = b at this
  cases this with
  | ok hn => simp only [bind_ok, hn.isEmpty]
  | err e => rfl

theorem setSlots_rel {cs : List (Child C)} {cs' : List (Child C')} (h : TreeSame s t) (hc : ChsSame cs cs') (i : Nat) :
    MRel TreeSame (setSlots s cs i) (setSlots t cs' i) := by
  induction cs generalizing cs' s t i with
  | nil =>
    cases cs' with
    | nil => exact MRel.ok h
    | cons => have := hc.length; simp at this
  | cons c cs ih =>
    cases cs' with
    | nil => have := hc.length; simp at this
    | cons c' cs' =>
      simp only [ChsSame, List.map_cons, List.cons.injEq] at hc
      simp only [setSlots]
      rw [hc.1]
      refine MRel.bind (MRel.refl _) ?_
      rintro y _ rfl
      refine MRel.bind (getIn_rel h y) ?_
      intro n n' hn
      exact ih (setIn_rel h y (by exact ⟨hn.parent, rfl, hn.kids⟩)) hc.2 _

theorem updSlotsFrom_rel (h : TreeSame s t) (p i : Nat) : MRel TreeSame (updSlotsFrom s p i) (updSlotsFrom t p i) := by
  refine MRel.bind (getIn_rel h p) ?_
  intro n n' hn
  simp only [hn.chs.length, hn.isChildLeaf]
  split
  · exact MRel.ok h
  · exact setSlots_rel h (hn.chs.drop i) i

theorem reparent_rel {cs : List (Child C)} {cs' : List (Child C')} (h : TreeSame s t) (hc : ChsSame cs cs') (r i : Nat) :
    MRel TreeSame (reparent s cs r i) (reparent t cs' r i) := by
  induction cs generalizing cs' s t i with
  | nil =>
    cases cs' with
    | nil => exact MRel.ok h
    | cons => have := hc.length; simp at this
  | cons c cs ih =>
    cases cs' with
    | nil => have := hc.length; simp at this
    | cons c' cs' =>
      simp only [ChsSame, List.map_cons, List.cons.injEq] at hc
      simp only [reparent]
      rw [hc.1]
      cases c'.arena with
      | internal y =>
        refine MRel.bind (getIn_rel h y) ?_
        intro n n' hn
        exact ih (setIn_rel h y (by exact ⟨rfl, rfl, hn.kids⟩)) hc.2 _
      | leaf l =>
        simp only [getLf_rel h]
        refine MRel.bind (MRel.refl _) ?_
        rintro L _ rfl
        exact ih (setLf_rel h l _) hc.2 _

theorem reparent_rel' {cs : List (Child C)} {cs' : List (Child C')} (h : TreeSame s t) (hc : ChsSame cs cs') {r r' : Nat} (hr : r = r') (i : Nat) :
    MRel TreeSame (reparent s cs r i) (reparent t cs' r' i) := by
  subst hr
  exact reparent_rel h hc r i

theorem resetParents_rel {cs : List (Child C)} {cs' : List (Child C')} (h : TreeSame s t) (hc : ChsSame cs cs') (p : Nat) :
    MRel TreeSame (resetParents s cs p) (resetParents t cs' p) := by
  induction cs generalizing cs' s t with
  | nil =>
    cases cs' with
    | nil => exact MRel.ok h
    | cons => have := hc.length; simp at this
  | cons c cs ih =>
    cases cs' with
    | nil => have := hc.length; simp at this
    | cons c' cs' =>
      simp only [ChsSame, List.map_cons, List.cons.injEq] at hc
      simp only [resetParents]
      rw [hc.1]
      cases c'.arena with
      | internal y =>
        refine MRel.bind (getIn_rel h y) ?_
        intro n n' hn
        exact ih (setIn_rel h y (by exact ⟨rfl, hn.slot, hn.kids⟩)) hc.2
      | leaf l =>
        simp only [getLf_rel h]
        refine MRel.bind (MRel.refl _) ?_
        rintro L _ rfl
        exact ih (setLf_rel h l _) hc.2

theorem applyReparent_rel (h : TreeSame s t) (rp : List (Idx × Nat × Nat)) : MRel TreeSame (applyReparent s rp) (applyReparent t rp) := by
  induction rp generalizing s t with
  | nil => exact MRel.ok h
  | cons a rp ih =>
    obtain ⟨a, p, i⟩ := a
    cases a with
    | leaf l =>
      simp only [applyReparent, getLf_rel h]
      refine MRel.bind (MRel.refl _) ?_
      rintro L _ rfl
      exact ih (setLf_rel h l _)
    | internal y =>
      simp only [applyReparent]
      refine MRel.bind (getIn_rel h y) ?_
      intro n n' hn
      exact ih (setIn_rel h y (by exact ⟨rfl, rfl, hn.kids⟩))

theorem purgeF_rel : ∀ (n : Nat) {s : Tree E C} {t : Tree E C'} (_ : TreeSame s t) (st : List Idx), MRel TreeSame (purgeF n s st) (purgeF n t st) := by
  intro n
  induction n with
  | zero => intro s t h st; exact MRel.err _
  | succ n ih =>
    intro s t h st
    cases st with
    | nil => exact MRel.ok h
    | cons a st =>
      cases a with
      | leaf l => exact ih (removeLf_rel h l) st
      | internal x =>
        simp only [purgeF]
        have := h.inn x
        cases h1 : s.inn.get x with
        | none =>
          rw [h1] at this
          generalize t.inn.get x = z at this
          cases this
          exact ih h st
        | some N =>
          rw [h1] at this
          generalize t.inn.get x = z at this
          cases this with
          | some hn =>
            simp only [hn.kids]
            exact ih (removeIn_rel h x) _

theorem purge_rel (h : TreeSame s t) (i : Idx) : MRel TreeSame (purge s i) (purge t i) := by
  rw [purge, purge, h.len]
  exact purgeF_rel _ h _

theorem reduceLoop_rel : ∀ (n : Nat) {s : Tree E C} {t : Tree E C'} (_ : TreeSame s t) (r : Bool),
    MRel (PairRel Eq TreeSame) (reduceLoop n s r) (reduceLoop n t r) := by
  intro n
  induction n with
  | zero => intro s t h r; exact MRel.err _
  | succ n ih =>
    intro s t h r
    obtain ⟨si, sl, sr, sc⟩ := s
    obtain ⟨ti, tl, tr, tc⟩ := t
    obtain rfl : sr = tr := h.root
    simp only [reduceLoop]
    refine MRel.bind (getIn_rel h _) ?_
    intro N N' hn
    have hk := hn.kids
    rcases hc : N.children with _ | ⟨c, _ | ⟨c2, cs⟩⟩ <;> rcases hc' : N'.children with _ | ⟨c', _ | ⟨c2', cs'⟩⟩ <;>
      simp only [hc, hc', List.map_nil, List.map_cons, List.cons.injEq, reduceCtorEq, and_false, false_and] at hk
    · exact MRel.ok ⟨rfl, h⟩
    · simp only [hk.1]
      cases c'.arena with
      | leaf l => exact MRel.ok ⟨rfl, h⟩
      | internal y =>
        refine MRel.bind (unwrap_rel (h.inn y)) ?_
        intro K K' hK
        have h2 := removeIn_rel h y
        refine MRel.bind (getIn_rel h2 _) ?_
        intro _ _ _
        exact ih (setIn_rel h2 _ hK) true
    · exact MRel.ok ⟨rfl, h⟩

theorem tryReduceLevels_rel (h : TreeSame s t) : MRel TreeSame (tryReduceLevels s) (tryReduceLevels t) := by
  rw [tryReduceLevels, tryReduceLevels, h.fuel]
  refine MRel.bind (reduceLoop_rel _ h false) ?_
  rintro ⟨r, s⟩ ⟨_, t⟩ ⟨rfl, h⟩
  obtain ⟨si, sl, sr, sc⟩ := s
  obtain ⟨ti, tl, tr, tc⟩ := t
  obtain rfl : sr = tr := h.root
  simp only [] at h ⊢
  split
  · refine MRel.bind (getIn_rel h _) ?_
    intro n n' hn
    exact resetParents_rel (setIn_rel h _ (by exact ⟨rfl, rfl, hn.kids⟩)) hn.chs _
  · exact MRel.ok h

theorem pairNeighbor_rel (h : TreeSame s t) (x : Nat) : MRel Eq (pairNeighbor s x) (pairNeighbor t x) := by
  refine MRel.bind (getIn_rel h x) ?_
  intro n n' hn
  rw [hn.parent]
  refine MRel.bind (MRel.refl _) ?_
  rintro p _ rfl
  refine MRel.bind (getIn_rel h p) ?_
  intro m m' hm
  rw [hn.slot]
  split
  · have := hm.chs.get 1
    apply MRel.ok
    generalize m.children[1]? = a at this
    generalize m'.children[1]? = b at this
    cases this with
    | none => rfl
    | some e => simp only [Option.map_some]; rw [show _ = _ from e]
  · have := hm.chs.get (n'.slot - 1)
    apply MRel.ok
    generalize m.children[n'.slot - 1]? = a at this
    generalize m'.children[n'.slot - 1]? = b at this
    cases this with
    | none => rfl
    | some e => simp only [Option.map_some]; rw [show _ = _ from e]

theorem nextSameLevelIn_rel (h : TreeSame s t) : ∀ (n x : Nat), MRel Eq (nextSameLevelIn n s x) (nextSameLevelIn n t x) := by
  intro n
  induction n with
  | zero => intro x; exact MRel.err _
  | succ n ih =>
    intro x
    simp only [nextSameLevelIn]
    refine MRel.bind (getIn_rel h x) ?_
    intro N N' hn
    rw [hn.parent, hn.slot]
    cases N'.parent with
    | none => exact MRel.ok rfl
    | some p =>
      refine MRel.bind (getIn_rel h p) ?_
      intro m m' hm
      have := hm.chs.get (N'.slot + 1)
      generalize m.children[N'.slot + 1]? = a at this
      generalize m'.children[N'.slot + 1]? = b at this
      cases this with
      | some e => exact MRel.ok (by rw [show _ = _ from e])
      | none =>
        refine MRel.bind (ih p) ?_
        rintro r _ rfl
        cases r with
        | none => exact MRel.ok rfl
        | some pn =>
          refine MRel.bind (getInIdx_rel h pn) ?_
          intro m m' hm
          apply MRel.ok
          have := hm.chs.head
          generalize m.children.head? = a at this
          generalize m'.children.head? = b at this
          cases this with
          | none => rfl
          | some e => simp only [Option.map_some]; rw [show _ = _ from e]

theorem nextSameLevelLeaf_rel (h : TreeSame s t) (l : Nat) : MRel Eq (nextSameLevelLeaf s l) (nextSameLevelLeaf t l) := by
  simp only [nextSameLevelLeaf, getLf_rel h, h.fuel]
  refine MRel.bind (MRel.refl _) ?_
  rintro L _ rfl
  refine MRel.bind (getIn_rel h _) ?_
  intro n n' hn
  rw [getLeafSlot_rel hn.chs]
  refine MRel.bind (MRel.refl _) ?_
  rintro i _ rfl
  have := hn.chs.get (i + 1)
  generalize n.children[i + 1]? = a at this
  generalize n'.children[i + 1]? = b at this
  cases this with
  | some e => exact MRel.ok (by rw [show _ = _ from e])
  | none =>
    refine MRel.bind (nextSameLevelIn_rel h _ _) ?_
    rintro r _ rfl
    cases r with
    | none => exact MRel.ok rfl
    | some pn =>
      refine MRel.bind (getInIdx_rel h pn) ?_
      intro m m' hm
      refine MRel.bind (unwrap_rel hm.chs.head) ?_
      intro c c' hc
      exact MRel.ok (by rw [show _ = _ from hc])

theorem nextElem_rel (h : TreeSame s t) (pos : Cursor) : MRel Eq (nextElem s pos) (nextElem t pos) := by
  refine MRel.bind (nextSameLevelLeaf_rel h _) ?_
  rintro r _ rfl
  exact MRel.refl _

theorem lastLeafF_rel (h : TreeSame s t) : ∀ (n x : Nat), MRel Eq (lastLeafF n s x) (lastLeafF n t x) := by
  intro n
  induction n with
  | zero => intro x; exact MRel.err _
  | succ n ih =>
    intro x
    simp only [lastLeafF]
    refine MRel.bind (getIn_rel h x) ?_
    intro N N' hn
    have := hn.chs.last
    generalize N.children.getLast? = a at this
    generalize N'.children.getLast? = b at this
    cases this with
    | none => exact MRel.ok rfl
    | some e =>
      simp only []
      rw [show _ = _ from e]
      rename_i c
      cases c.arena with
      | leaf l => exact MRel.ok rfl
      | internal y => exact ih y

theorem lastLeaf_rel (h : TreeSame s t) : MRel Eq (lastLeaf s) (lastLeaf t) := by
  rw [lastLeaf, lastLeaf, h.fuel, h.root]
  exact lastLeafF_rel h _ _

theorem firstLeafF_rel (h : TreeSame s t) : ∀ (n x : Nat), MRel Eq (firstLeafF n s x) (firstLeafF n t x) := by
  intro n
  induction n with
  | zero => intro x; exact MRel.err _
  | succ n ih =>
    intro x
    simp only [firstLeafF]
    refine MRel.bind (getIn_rel h x) ?_
    intro N N' hn
    have := hn.chs.head
    generalize N.children.head? = a at this
    generalize N'.children.head? = b at this
    cases this with
    | none => exact MRel.ok rfl
    | some e =>
      simp only []
      rw [show _ = _ from e]
      rename_i c
      cases c.arena with
      | leaf l => exact MRel.ok rfl
      | internal y => exact ih y

theorem firstLeaf_rel (h : TreeSame s t) : MRel Eq (firstLeaf s) (firstLeaf t) := by
  rw [firstLeaf, firstLeaf, h.fuel, h.root]
  exact firstLeafF_rel h _ _

end
end GB

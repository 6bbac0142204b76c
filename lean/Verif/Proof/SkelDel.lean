import Verif.Proof.SkelOps

/-!
# Removal and rebalancing do not depend on the caches
-/

namespace GB
open Tree
variable {E C C' D D' : Type} {B : Trait E C D} {B' : Trait E C' D'}

section
variable (ct : CacheTotal B) (ct' : CacheTotal B')
include ct ct'

theorem handleLackSingle_rel {s : Tree E C} {t : Tree E C'} (h : TreeSame s t) (x : Nat) :
    MRel (PairRel Eq TreeSame) (handleLackSingle B s x) (handleLackSingle B' t x) := by
  simp only [handleLackSingle, h.root]
  split
  · refine MRel.bind (tryReduceLevels_rel h) ?_
    intro s1 t1 h1
    exact MRel.ok ⟨rfl, h1⟩
  · refine MRel.bind (getIn_rel h x) ?_
    intro n n' hn
    simp only [hn.parent, hn.slot, hn.chs.length]
    refine MRel.bind (MRel.refl _) ?_
    rintro p _ rfl
    refine MRel.bind (getIn_rel h p) ?_
    intro par par' hp
    refine MRel.bind (vget_rel hp.chs _) ?_
    intro here here' hh
    rw [show here.arena = here'.arena from hh]
    refine MRel.bind (MRel.refl _) ?_
    rintro _ _ rfl
    split
    · refine MRel.bind (vremove_rel hp.chs _) ?_
      rintro ⟨_, cs⟩ ⟨_, cs'⟩ ⟨-, hcs⟩
      have h1 := removeIn_rel (setIn_rel h p (hp.withChs hcs)) x
      refine MRel.bind (updSlotsFrom_rel h1 p _) ?_
      intro s2 t2 h2
      exact MRel.ok ⟨rfl, h2⟩
    · refine MRel.bind (pairNeighbor_rel h x) ?_
      rintro pn _ rfl
      rcases pn with _ | ⟨⟨aI, aArr⟩, bI, bArr⟩
      · exact MRel.ok ⟨rfl, h⟩
      · simp only []
        refine MRel.bind (vget_rel hp.chs _) ?_
        intro chA chA' hA
        refine MRel.bind (vget_rel hp.chs _) ?_
        intro chB chB' hB
        refine MRel.bind (MRel.refl _) ?_
        rintro ai _ rfl
        refine MRel.bind (MRel.refl _) ?_
        rintro bi _ rfl
        refine MRel.bind (MRel.refl _) ?_
        rintro _ _ rfl
        refine MRel.bind (getIn_rel h ai) ?_
        intro a a' ha
        refine MRel.bind (getIn_rel h bi) ?_
        intro b b' hb
        rw [ha.chs.length, hb.chs.length]
        split
        · by_cases hlt : a'.children.length < b'.children.length
          · simp only [if_pos hlt]
            have h1 := ha.chs.append (hb.chs.take ((b'.children.length - a'.children.length) / 2))
            have h2 := hb.chs.drop ((b'.children.length - a'.children.length) / 2)
            rw [h1.length, h2.length, reparentEntries_rel (hb.chs.take _), reparentEntries_rel h2]
            refine MRel.bind (MRel.refl _) ?_
            rintro _ _ rfl
            have h3 := setIn_rel (setIn_rel h ai (ha.withChs h1)) bi (hb.withChs h2)
            refine MRel.bind (calcCache_rel ct ct' _ _ _ _) ?_
            rintro ⟨ac, _⟩ ⟨ac', _⟩ _
            refine MRel.bind (calcCache_rel ct ct' _ _ _ _) ?_
            rintro ⟨bc, _⟩ ⟨bc', _⟩ _
            refine MRel.bind (getIn_rel h3 p) ?_
            intro q q' hq
            have hq2 := hq.withChs ((hq.chs.set aArr (show ChSame { chA with cache := ac } { chA' with cache := ac' } from hA)).set bArr
              (show ChSame { chB with cache := bc } { chB' with cache := bc' } from hB))
            refine MRel.bind (applyReparent_rel (setIn_rel h3 p hq2) _) ?_
            intro s4 t4 h4
            exact MRel.ok ⟨by simp only [hq2.isLack], h4⟩
          · simp only [if_neg hlt]
            have h1 := ha.chs.take (a'.children.length - (a'.children.length - b'.children.length) / 2)
            have h2 := (ha.chs.drop (a'.children.length - (a'.children.length - b'.children.length) / 2)).append hb.chs
            rw [h1.length, h2.length, reparentEntries_rel hb.chs, reparentEntries_rel h2]
            refine MRel.bind (MRel.refl _) ?_
            rintro _ _ rfl
            have h3 := setIn_rel (setIn_rel h ai (ha.withChs h1)) bi (hb.withChs h2)
            refine MRel.bind (calcCache_rel ct ct' _ _ _ _) ?_
            rintro ⟨ac, _⟩ ⟨ac', _⟩ _
            refine MRel.bind (calcCache_rel ct ct' _ _ _ _) ?_
            rintro ⟨bc, _⟩ ⟨bc', _⟩ _
            refine MRel.bind (getIn_rel h3 p) ?_
            intro q q' hq
            have hq2 := hq.withChs ((hq.chs.set aArr (show ChSame { chA with cache := ac } { chA' with cache := ac' } from hA)).set bArr
              (show ChSame { chB with cache := bc } { chB' with cache := bc' } from hB))
            refine MRel.bind (applyReparent_rel (setIn_rel h3 p hq2) _) ?_
            intro s4 t4 h4
            exact MRel.ok ⟨by simp only [hq2.isLack], h4⟩
        · split
          · rw [reparentEntries_rel hb.chs]
            have h3 := setIn_rel (setIn_rel h ai (ha.withChs (ha.chs.append hb.chs))) bi (hb.withChs ChsSame.nil)
            refine MRel.bind (calcCache_rel ct ct' _ _ _ _) ?_
            rintro ⟨ac, _⟩ ⟨ac', _⟩ _
            refine MRel.bind (getIn_rel h3 p) ?_
            intro q q' hq
            refine MRel.bind (vremove_rel (hq.chs.set aArr (show ChSame { chA with cache := ac } { chA' with cache := ac' } from hA)) bArr) ?_
            rintro ⟨_, cs⟩ ⟨_, cs'⟩ ⟨-, hcs⟩
            have hq2 := hq.withChs hcs
            refine MRel.bind (purge_rel (setIn_rel h3 p hq2) bI) ?_
            intro s4 t4 h4
            refine MRel.bind (updSlotsFrom_rel h4 p _) ?_
            intro s5 t5 h5
            refine MRel.bind (applyReparent_rel h5 _) ?_
            intro s6 t6 h6
            exact MRel.ok ⟨by simp only [hq2.isLack], h6⟩
          · rw [reparentEntries_rel hb.chs, reparentEntries_rel ha.chs]
            have h3 := setIn_rel (setIn_rel h ai (ha.withChs ChsSame.nil)) bi (hb.withChs (ha.chs.append hb.chs))
            refine MRel.bind (calcCache_rel ct ct' _ _ _ _) ?_
            rintro ⟨bc, _⟩ ⟨bc', _⟩ _
            refine MRel.bind (getIn_rel h3 p) ?_
            intro q q' hq
            refine MRel.bind (vremove_rel (hq.chs.set bArr (show ChSame { chB with cache := bc } { chB' with cache := bc' } from hB)) aArr) ?_
            rintro ⟨_, cs⟩ ⟨_, cs'⟩ ⟨-, hcs⟩
            have hq2 := hq.withChs hcs
            refine MRel.bind (purge_rel (setIn_rel h3 p hq2) aI) ?_
            intro s4 t4 h4
            refine MRel.bind (updSlotsFrom_rel h4 p _) ?_
            intro s5 t5 h5
            refine MRel.bind (applyReparent_rel h5 _) ?_
            intro s6 t6 h6
            exact MRel.ok ⟨by simp only [hq2.isLack], h6⟩

theorem handleLackF_rel : ∀ (n : Nat) {s : Tree E C} {t : Tree E C'} (_ : TreeSame s t) (x : Nat),
    MRel TreeSame (handleLackF B n s x) (handleLackF B' n t x) := by
  intro n
  induction n with
  | zero => intro s t h x; exact MRel.err _
  | succ n ih =>
    intro s t h x
    simp only [handleLackF]
    refine MRel.bind (handleLackSingle_rel ct ct' h x) ?_
    rintro ⟨r, s1⟩ ⟨_, t1⟩ ⟨rfl, h1⟩
    have h1 : TreeSame s1 t1 := h1
    cases r with
    | none => exact MRel.ok h1
    | some p => exact ih h1 p

theorem handleLack_rel {s : Tree E C} {t : Tree E C'} (h : TreeSame s t) (x : Nat) : MRel TreeSame (handleLack B s x) (handleLack B' t x) := by
  rw [handleLack, handleLack, h.fuel]
  exact handleLackF_rel ct ct' _ h x

theorem removeInternalF_rel : ∀ (n : Nat) {s : Tree E C} {t : Tree E C'} (_ : TreeSame s t) (x : Nat),
    MRel TreeSame (removeInternalF B n s x) (removeInternalF B' n t x) := by
  intro n
  induction n with
  | zero => intro s t h x; exact MRel.err _
  | succ n ih =>
    intro s t h x
    simp only [removeInternalF, h.root]
    split
    · exact MRel.ok h
    · refine MRel.bind (getIn_rel h x) ?_
      intro n n' hn
      simp only [hn.parent, hn.slot]
      refine MRel.bind (MRel.refl _) ?_
      rintro p _ rfl
      have h1 : TreeSame _ _ := removeIn_rel h x
      rw [h.root] at h1
      refine MRel.bind (getIn_rel h1 p) ?_
      intro q q' hq
      refine MRel.bind (vremove_rel hq.chs _) ?_
      rintro ⟨_, cs⟩ ⟨_, cs'⟩ ⟨-, hcs⟩
      have hq2 := hq.withChs hcs
      refine MRel.bind (updSlotsFrom_rel (setIn_rel h1 p hq2) p _) ?_
      intro s2 t2 h2
      simp only [hq2.isEmpty, hq2.isLack]
      split
      · exact ih h2 p
      · split
        · exact handleLack_rel ct ct' h2 p
        · exact MRel.ok h2

end

section
variable (hb : ElemSame B B') (ct : CacheTotal B) (ct' : CacheTotal B')
include hb ct ct'

theorem removeLeaf_rel {s : Tree E C} {t : Tree E C'} (h : TreeSame s t) (pos : Cursor) :
    MRel (PairRel Eq TreeSame) (removeLeaf B s pos) (removeLeaf B' t pos) := by
  simp only [removeLeaf, h.lf, hb.useDiff]
  cases t.lf.get pos.leaf with
  | none => exact MRel.ok ⟨rfl, h⟩
  | some L =>
    simp only []
    refine MRel.bind (getIn_rel h _) ?_
    intro m m' hm
    rw [getLeafSlot_rel hm.chs]
    refine MRel.bind (MRel.refl _) ?_
    rintro i _ rfl
    refine MRel.bind (vremove_rel hm.chs _) ?_
    rintro ⟨c, cs⟩ ⟨c', cs'⟩ ⟨hc, hcs⟩
    have hc : c.arena = c'.arena := hc
    have hm2 := hm.withChs hcs
    have h1 := setIn_rel h L.parent hm2
    simp only [hc]
    refine MRel.bind (MRel.refl _) ?_
    rintro _ _ rfl
    simp only [getLf_rel h1]
    refine MRel.bind (MRel.refl _) ?_
    rintro R _ rfl
    have h2 := removeLf_rel h1 c'.arena.raw
    have e : ({ (s.setIn L.parent { m with children := cs }) with lf := (s.setIn L.parent { m with children := cs }).lf.remove c'.arena.raw } : Tree E C) =
        { (s.setIn L.parent { m with children := cs }) with lf := t.lf.remove c'.arena.raw } := by
      simp only [setIn, h.lf]
    rw [e] at h2
    refine MRel.bind (recursiveUpdateCache_rel ct ct' (by first | exact h2 | exact removeLf_rel h1 _) _ _ _ _ rfl) ?_
    intro s3 t3 h3
    simp only [hm2.isEmpty, hm2.isLack, h3.fuel]
    refine MRel.bind (R := TreeSame) ?_ ?_
    · split
      · exact removeInternalF_rel ct ct' _ h3 _
      · split
        · exact handleLack_rel ct ct' h3 _
        · exact MRel.ok h3
    · intro s4 t4 h4
      exact MRel.ok ⟨rfl, h4⟩

end
end GB

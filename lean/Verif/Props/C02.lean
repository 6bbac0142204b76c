import Verif.Props.C01
import Verif.Proof.CheckSound

/-!
# C02: `prepend` inserts at the front

Full claim: on every valid tree `prepend(e)` puts `e` first and leaves the tree passing `check()`.  It is
**false** on the empty tree: the early return of `prepend` (src/lib.rs:2522-2533) does not update the root
cache (`C02_false_on_empty`).  `C02_empty_exact` describes the failure on all empty trees.  `C02_prepend_partial` covers every non-empty tree, `C02_prepend_empty_partial`
the sequence on the empty one.
-/

namespace GB
variable {E C D X : Type}
open Tree

/-- On every valid non-empty tree `prepend` does not panic, keeps validity, and acts as the list operation.
(Missing from the full claim: validity of the result on an empty tree, which is false.) -/
theorem C02_prepend_partial {B : Trait E C D} {A : Law B} {m : Fill} {s : Tree E C} {e : E} (hm : 1 ≤ m.lo ∧ m.lo + m.d ≤ 6)
    (hi : Inv A m s) (hne : (abs s).es ≠ []) (he : A.okE e) :
    ∃ c s', prepend B s e = .ok (c, s') ∧ Inv A m s' ∧ specPrepend B (abs s) e = .ok (c, abs s') := by
  obtain ⟨h, hi⟩ := hi
  have ho : order s ≠ [] := fun h => hne ((abs_nil hi).mpr h)
  obtain ⟨⟨lvl, g⟩, sz⟩ := hi
  obtain ⟨c, s', lvl', h', h1, g', sz', -, r⟩ := prepend_spec hm.1 hm.2 g sz he ho
  exact ⟨c, s', h1, ⟨h', ⟨lvl', g'⟩, sz'⟩, r.spec⟩

/-- the content of the element comes first -/
theorem C02_prepend_content_partial {B : Trait E C D} {A : Law B} {cont : E → List X} (L : ContentLaw B A.okE cont) {m : Fill}
    {s : Tree E C} {e : E} (hm : 1 ≤ m.lo ∧ m.lo + m.d ≤ 6) (hi : Inv A m s) (hne : (abs s).es ≠ []) (he : A.okE e) :
    ∃ c s', prepend B s e = .ok (c, s') ∧ Inv A m s' ∧
      content cont (abs s').es = cont e ++ content cont (abs s).es ∧
      ((abs s').es.head?.map Prod.fst = some c.leaf ∧ c.offset = 0) := by
  obtain ⟨c, s', h1, h2, h3⟩ := C02_prepend_partial hm hi hne he
  refine ⟨c, s', h1, h2, specPrepend_content L hi.okE he h3, ?_⟩
  unfold specPrepend at h3
  split at h3
  · split at h3
    · next x _ _ _ =>
      cases hr : B.mergeLeft x e with
      | error y => rw [hr] at h3; cases h3
      | ok x' =>
        rw [hr, bind_ok] at h3
        simp only [pure_ok, Except.ok.injEq, Prod.mk.injEq] at h3
        obtain ⟨rfl, h3⟩ := h3
        rw [← h3]
        exact ⟨rfl, rfl⟩
    · simp only [Except.ok.injEq, Prod.mk.injEq] at h3
      obtain ⟨rfl, h3⟩ := h3
      rw [← h3]
      exact ⟨rfl, rfl⟩
  · next h => exact absurd h hne

/-- On an empty tree `prepend` does not panic and the element sequence is right; nothing is claimed about the
root cache. -/
theorem C02_prepend_empty_partial {B : Trait E C D} {A : Law B} {m : Fill} {s : Tree E C} {e : E} (hm : 1 ≤ m.lo)
    (hi : Inv A m s) (hne : (abs s).es = []) :
    ∃ c s', prepend B s e = .ok (c, s') ∧ specPrepend B (abs s) e = .ok (c, abs s') := by
  obtain ⟨h, hi⟩ := hi
  have ho : order s = [] := (abs_nil hi).mp hne
  obtain ⟨⟨lvl, g⟩, sz⟩ := hi
  obtain ⟨N, hN, h1, h2, -⟩ := prepend_empty_spec (e := e) hm g sz ho
  refine ⟨_, _, h1, ?_⟩
  rw [specPrepend, hne]
  have hl : (linkLeaf B s s.root 0 e N).lf.items.length = s.lf.items.length + 1 := by
    simp [linkLeaf, addLf, Tree.setIn]
  simp only [abs, h2, hl]

/-- Exactly what goes wrong on an empty tree, for every valid empty tree and every valid element: the result is that of `push` except that the root cache is the
old one.  So `check()` passes exactly if the cache of the element happens to be the old root cache. -/
theorem C02_empty_exact [DecidableEq C] {B : Trait E C D} {A : Law B} {m : Fill} {s : Tree E C} {e : E} (hm : 1 ≤ m.lo ∧ m.lo + m.d ≤ 6)
    (hi : Inv A m s) (hne : (abs s).es = []) (he : A.okE e) :
    ∃ c s', prepend B s e = .ok (c, s') ∧ s'.rootCache = s.rootCache ∧
      push B s e = .ok (c, { s' with rootCache := B.elemCache e }) ∧ Inv A m { s' with rootCache := B.elemCache e } ∧
      (check B s' = .ok () ↔ s.rootCache = B.elemCache e) := by
  obtain ⟨c, s2, p1, p2, p3⟩ := C01_push (B := B) hm hi he
  obtain ⟨h, hi'⟩ := id hi
  have ho : order s = [] := (abs_nil hi').mp hne
  obtain ⟨⟨lvl, g⟩, sz⟩ := hi'
  have ne := Sz.ne sz hm.1
  have hc := (empty_iff g.wf ne).mp ho
  obtain ⟨N, hN, h1, h2, hwf⟩ := prepend_empty_spec (e := e) hm.1 g sz ho
  obtain ⟨i, hi0⟩ := g.wf.root'
  have hget := get_of_lnk hi0
  rw [hN] at hget
  cases hget
  have hroot : (linkLeaf B s s.root 0 e ⟨none, i, chs s s.root⟩).inn.get s.root = some ⟨none, i, [⟨.leaf s.lf.items.length, B.elemCache e⟩]⟩ := by
    simp [linkLeaf, hc, Tree.setIn, addLf, Arena.get_set, (Arena.get_lt hN)]
  have hg : (addLf s ⟨e, s.root⟩).getIn s.root = .ok ⟨none, i, chs s s.root⟩ := getIn_ok hN
  have hpush : push B s e = .ok (⟨s.lf.items.length, 0⟩, { linkLeaf B s s.root 0 e ⟨none, i, chs s s.root⟩ with rootCache := B.elemCache e }) := by
    have hcell := A.total_single _ (A.elem_ok e he)
    have hemp := isEmpty_spec g.wf ne
    simp only [push, hemp, ho, bind_ok, List.isEmpty_nil, if_true, allocLeafChild_eq, root_addLf, hg, vpush, hc, List.length_nil, MAXC, Nat.reduceLT, List.nil_append]
    have hl : (addLf s ⟨e, s.root⟩).setIn s.root ⟨none, i, [⟨.leaf s.lf.items.length, B.elemCache e⟩]⟩ = linkLeaf B s s.root 0 e ⟨none, i, chs s s.root⟩ := by
      simp [linkLeaf, hc]
    simp only [hl]
    have hgr := getIn_ok hroot
    have hr' : (linkLeaf B s s.root 0 e ⟨none, i, chs s s.root⟩).root = s.root := rfl
    have hrc' : (linkLeaf B s s.root 0 e ⟨none, i, chs s s.root⟩).rootCache = s.rootCache := rfl
    cases hu : B.useDiff with
    | true =>
      have hd := A.diff_apply hu _ _ _ (A.diff_empty hu s.rootCache (B.elemCache e) (g.rok.2 hc))
      simp only [recursiveUpdateCache, pure_ok, bind_ok, if_true, fuel, recUpdDiff, hr', hgr, hrc', hd, hcell, Idx.raw]
      rw [hc]
      rfl
    | false =>
      obtain ⟨d, hd, -⟩ := A.calc_ok s.rootCache [B.elemCache e] (by simp) (by simpa using A.elem_ok e he)
      simp only [recursiveUpdateCache, pure_ok, bind_ok, Bool.false_eq_true, if_false, fuel, recUpdCalc, hr', hgr, hrc', calcCache, List.map_cons, List.map_nil, hd, hcell, Idx.raw]
      rw [hc]
      rfl
  rw [hpush] at p1
  cases p1
  refine ⟨_, _, h1, rfl, hpush, p2, ?_, ?_⟩
  · intro hck
    obtain ⟨R, d, q1, q2⟩ := (check_sound hck).root
    rw [show (linkLeaf B s s.root 0 e ⟨none, i, chs s s.root⟩).root = s.root from rfl, hroot] at q1
    cases q1
    obtain ⟨d', hd, -⟩ := A.calc_ok B.dflt [B.elemCache e] (by simp) (by simpa using A.elem_ok e he)
    simp only [List.map_cons, List.map_nil, hd, A.total_single _ (A.elem_ok e he), Except.ok.injEq, Prod.mk.injEq] at q2
    exact q2.1.symm
  · intro hrc
    have heq : { linkLeaf B s s.root 0 e ⟨none, i, chs s s.root⟩ with rootCache := B.elemCache e } = linkLeaf B s s.root 0 e ⟨none, i, chs s s.root⟩ := by
      rw [← hrc]; rfl
    rw [heq] at p2
    obtain ⟨h', hi2⟩ := p2
    have ne2 := hi2.ne hm.1
    obtain ⟨lvl2, g2⟩ := hi2.ex
    refine check_ok (A := A) ⟨hwf, g2.cinv, g2.cok, g2.rok, g2.okE⟩ ne2 (by decide) fun hE => ?_
    have : entries (linkLeaf B s s.root 0 e ⟨none, i, chs s s.root⟩) = [] := by rw [entries, hE]; rfl
    rw [h2] at this
    cases this

/-- **The full claim is false**: prepending to a new rope tree leaves the root cache at the default (length 0)
although the tree contains three bytes, and `check()` panics. -/
theorem C02_false_on_empty : ∃ (e : GapBuf) (c : Cursor) (s' : Tree GapBuf Int),
    (ropeLaw 4).okE e ∧ e.toVec = [1, 2, 3] ∧ prepend ropeTrait (newTree ropeTrait) e = .ok (c, s') ∧
    (abs s').es = [(0, e)] ∧ s'.rootCache = 0 ∧ check ropeTrait s' = .error .panic := by
  refine ⟨⟨[1, 2, 3, 0], 3, 1⟩, _, _, ⟨by simp [GapBuf.WF], rfl⟩, rfl, rfl, rfl, rfl, rfl⟩

example := C02_prepend_partial (by decide) ordSample_spec.1 (by rw [ordSample_spec.2]; simp) (e := (100, 3)) trivial
example := C02_prepend_content_partial (ropeContent 4) (by decide) ropeSample_spec.1 (by rw [ropeSample_spec.2]; simp)
  (e := ⟨[7, 0, 0, 0], 1, 3⟩) ⟨by simp [GapBuf.WF], rfl⟩
example := C02_prepend_empty_partial (A := ropeLaw 4) (m := 5) (by decide) ⟨1, new_inv _ _⟩ (by rw [new_entries])
  (e := ⟨[7, 0, 0, 0], 1, 3⟩)

/-- on every empty rope: the check fails unless the element is empty -/
example {s : Tree GapBuf Int} (hi : Inv (ropeLaw 4) 5 s) (hne : (abs s).es = []) (h0 : s.rootCache = 0) :
    ∃ c s', prepend ropeTrait s ⟨[7, 0, 0, 0], 1, 3⟩ = .ok (c, s') ∧ check ropeTrait s' ≠ .ok () := by
  obtain ⟨c, s', h1, -, -, -, h5⟩ := C02_empty_exact (by decide) hi hne (e := ⟨[7, 0, 0, 0], 1, 3⟩) ⟨by simp [GapBuf.WF], rfl⟩
  refine ⟨c, s', h1, fun h => ?_⟩
  have h6 := h5.mp h
  rw [h0] at h6
  exact absurd h6 (by decide)

example := C02_empty_exact (A := ropeLaw 4) (m := 5) (by decide) ⟨1, new_inv _ _⟩ (by rw [new_entries])
  (e := ⟨[7, 0, 0, 0], 1, 3⟩) ⟨by simp [GapBuf.WF], rfl⟩

end GB

import Verif.Proof.SkelSearch
import Verif.Proof.SkelMany
import Verif.Proof.EditHistory
import Verif.Props.C85

/-!
# Histories of all operations on trees with any caches
-/

namespace GB
open Tree
variable {E C C' D D' X : Type} {B : Trait E C D} {okE : E → Prop}

/-- preconditions of an operation that do not mention caches: those of `BOp.valid` without the conditions on the reported differences, on the caches of elements
and on `prepend` to an empty tree -/
def BOp.sane (B : Trait E C D) (okE : E → Prop) (s : Tree E C) : BOp E C D → Prop
  | .basic o => o.fits B okE (abs s)
  | .updateLeaf l f => ∃ e e1 need n1 n2, (l, e) ∈ (abs s).es ∧ f e = .ok (e1, need, n1, n2) ∧ okE e1 ∧ (∀ b, n1 = some b → okE b) ∧ (∀ b, n2 = some b → okE b)
  | .drain a b _ => (∀ d, depth s = .ok d → d ≤ 8) ∧ InRange B (abs s) a b ∧ ∀ i, posOf B (abs s) a = some i → i < unitLen B (abs s).es
  | .update f _ a b => (∀ d, depth s = .ok d → d ≤ 8) ∧ InRange B (abs s) a b ∧ ∀ st e, okE e → ∃ st' e' d, f st e = .ok (st', e', d) ∧ okE e'
  | .ranges f _ args => (∀ st e a, okE e → ∃ st' e', f st e a = .ok (st', e') ∧ okE e') ∧ ∀ a ∈ args, ∃ e, (a.1, e) ∈ (abs s).es ∧ Fits a.2.1 a.2.2.1 (B.rleLen e)
  | .insertMany c data => (∀ d ∈ data, okE d) ∧ ∃ e, (c.leaf, e) ∈ (abs s).es ∧ c.offset ≤ B.rleLen e
  | .bySearch q arg f => (∀ d, depth s = .ok d → d ≤ 10) ∧ ∃ r e, query q s arg = .ok (some r) ∧ (r.cursor.leaf, e) ∈ (abs s).es ∧
      ∀ fnd, (∃ e1 d n1, f e ⟨r.cursor, fnd⟩ = .ok (e1, some (d, n1, none)) ∧ okE e1 ∧ (∀ a, n1 = some a → okE a) ∧ (B.canRemove e1 = true → n1 = none)) ∨
        ∃ e1, f e ⟨r.cursor, fnd⟩ = .ok (e1, none) ∧ okE e1

/-- the operation for the tree without caches -/
def BOp.bareAt (s : Tree E C) : BOp E C D → BOp E Unit Unit
  | .basic o => .basic o
  | .updateLeaf l f => .updateLeaf l f
  | .drain a b k => .drain a b k
  | .update f st a b => .update (bareFn f) st a b
  | .ranges f st args => .ranges f st args
  | .insertMany c data => .insertMany c data
  | .bySearch q arg f => .bySearch (shadow s q) arg (bareSearchFn f)

theorem depthF_rel {s : Tree E C} {t : Tree E C'} (h : TreeSame s t) : ∀ (n x d : Nat), MRel Eq (depthF n s x d) (depthF n t x d) := by
  intro n
  induction n with
  | zero => intro x d; exact MRel.err _
  | succ n ih =>
    intro x d
    rw [depthF, depthF]
    refine MRel.bind (getIn_rel h x) ?_
    intro N N' hN
    refine MRel.bind (unwrap_rel hN.chs.head) ?_
    intro c c' hc
    rw [show c.arena = c'.arena from hc]
    cases c'.arena with
    | leaf l => exact MRel.ok rfl
    | internal y => exact ih y (d + 1)

theorem depth_rel {s : Tree E C} {t : Tree E C'} (h : TreeSame s t) : depth s = depth t := by
  have := depthF_rel h s.fuel s.root 0
  rw [depth, depth, ← h.fuel, ← h.root]
  revert this
  generalize depthF s.fuel s s.root 0 = a
  generalize depthF s.fuel t s.root 0 = b
  intro this
  cases this with
  | ok h => rw [h]
  | err e => rfl

theorem BOp.run_rel (ct : CacheTotal B) (ho : HashOrd E) {s : Tree E C} {t : Tree E Unit} (h : TreeSame s t) (o : BOp E C D) :
    MRel TreeSame (o.run B ho s) ((o.bareAt s).run (bare B) ho t) := by
  have hb := bare_same B
  have ct' := bare_total B
  cases o with
  | basic o => exact Op.run_rel hb ct ct' h o
  | updateLeaf l f =>
    refine MRel.bind (updateLeaf_rel hb ct ct' h l f) ?_
    rintro ⟨_, _, s1⟩ ⟨_, _, t1⟩ ⟨-, -, h1⟩
    exact MRel.ok h1
  | drain a b k =>
    refine MRel.bind (drain_rel hb ct ct' h _ _ k) ?_
    rintro ⟨_, _, s1⟩ ⟨_, _, t1⟩ ⟨-, -, h1⟩
    exact MRel.ok h1
  | update f st a b =>
    refine MRel.bind (update_rel hb ct ct' ho (bareFn_same f) st h a b) ?_
    rintro ⟨_, _, s1⟩ ⟨_, _, t1⟩ ⟨-, -, h1⟩
    exact MRel.ok h1
  | ranges f st args =>
    refine MRel.bind (updateLeavesWithArg_rel hb ct ct' ho f st h args) ?_
    rintro ⟨_, _, s1⟩ ⟨_, _, t1⟩ ⟨-, -, h1⟩
    exact MRel.ok h1
  | insertMany c data => exact insertMany_rel hb ct ct' h (some c) data
  | bySearch q arg f =>
    refine MRel.bind (updateLeafBySearch_rel ct ct' hb h q arg (bareSearchFn_same f)) ?_
    rintro ⟨_, _, s1⟩ ⟨_, _, t1⟩ ⟨-, -, h1⟩
    exact MRel.ok h1

theorem BOp.bare_touches {s : Tree E C} {t : Tree E Unit} (h : TreeSame s t) (o : BOp E C D) (l : Nat) :
    (o.bareAt s).touches (bare B) t (abs t) l ↔ o.touches B s (abs s) l := by
  rw [h.abs]
  cases o with
  | basic o => cases o <;> exact Iff.rfl
  | bySearch q arg f =>
    simp only [BOp.bareAt, BOp.touches, shadow_query h]
  | _ => exact Iff.rfl

theorem BOp.bare_valid (L : ElemLaw B okE) {s : Tree E C} {t : Tree E Unit} (h : TreeSame s t) {o : BOp E C D} (hv : o.sane B okE s)
    (hp : (abs s).es ≠ [] ∨ ∀ e, o ≠ .basic (.prepend e)) : (o.bareAt s).valid (bareLaw L) (fun _ _ _ => True) ⟨1, 4⟩ t := by
  cases o with
  | basic o =>
    show o.valid _ _ (abs t)
    rw [← h.abs]
    cases o with
    | prepend e => exact ⟨hv, fun hne => hp.elim (fun h => h hne) (fun h => h e rfl)⟩
    | _ => exact hv
  | updateLeaf l f =>
    obtain ⟨e, e1, need, n1, n2, h1, h2, h3, h4, h5⟩ := hv
    exact ⟨e, e1, need, n1, n2, by rw [← h.abs]; exact h1, h2, h3, h4, h5, .inr rfl, fun _ => ⟨bareLawE L, fun _ _ => rfl⟩⟩
  | drain a b k =>
    obtain ⟨h1, h2, h3⟩ := hv
    rw [depth_rel h] at h1
    rw [h.abs] at h2 h3
    exact ⟨rfl, h1, h2, h3⟩
  | update f st a b =>
    obtain ⟨h1, h2, h3⟩ := hv
    rw [depth_rel h] at h1
    rw [h.abs] at h2
    refine ⟨h1, h2, fun st e he => ?_⟩
    obtain ⟨st', e', d, k1, k2⟩ := h3 st e he
    exact ⟨st', e', d.map fun _ => (), by simp only [bareFn, k1, bind_ok, pure_ok], k2, fun _ _ => trivial, fun _ => rfl⟩
  | ranges f st args =>
    obtain ⟨h1, h2⟩ := hv
    rw [h.abs] at h2
    exact ⟨fun _ _ _ _ => trivial, h1, h2⟩
  | insertMany c data =>
    obtain ⟨h1, h2⟩ := hv
    rw [h.abs] at h2
    exact ⟨h1, h2⟩
  | bySearch q arg f =>
    obtain ⟨h1, r, e, h2, h3, h4⟩ := hv
    rw [depth_rel h] at h1
    rw [h.abs] at h3
    refine ⟨h1, r, e, (shadow_query h q arg).trans h2, h3, fun fnd => ?_⟩
    rcases h4 fnd with ⟨e1, d, n1, k1, k2, k3, k4⟩ | ⟨e1, k1, k2⟩
    · exact .inl ⟨e1, (), n1, by simp only [bareSearchFn, k1]; rfl, k2, k3, fun hc => ⟨k4 hc, bareLawE L⟩, fun _ _ _ => rfl⟩
    · exact .inr ⟨e1, by simp only [bareSearchFn, k1]; rfl, k2, rfl⟩

/-- all operations of the history meet their preconditions -/
def saneB (B : Trait E C D) (okE : E → Prop) (ho : HashOrd E) : Tree E C → List (BOp E C D) → Prop
  | _, [] => True
  | s, o :: os => o.sane B okE s ∧ ∀ s', o.run B ho s = .ok s' → saneB B okE ho s' os

end GB

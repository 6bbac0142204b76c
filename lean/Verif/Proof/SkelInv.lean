import Verif.Proof.SkelDel
import Verif.Proof.Abs
import Verif.Proof.History

/-!
# What two trees that differ in their caches only have in common
-/

namespace GB
variable {E C C' D D' : Type}
open Tree

section
variable {s : Tree E C} {t : Tree E C'}

theorem TreeSame.kids (h : TreeSame s t) (x : Nat) : kids s x = kids t x := by
  have := h.inn x
  simp only [GB.kids]
  generalize s.inn.get x = a at this
  generalize t.inn.get x = b at this
  cases this with
  | none => rfl
  | some hn => exact hn.kids

theorem TreeSame.lnk (h : TreeSame s t) (x : Nat) : lnk s x = lnk t x := by
  have := h.inn x
  simp only [GB.lnk]
  generalize s.inn.get x = a at this
  generalize t.inn.get x = b at this
  cases this with
  | none => rfl
  | some hn => simp only [Option.map_some, hn.parent, hn.slot]

theorem TreeSame.get_left (h : TreeSame s t) {x : Nat} {N : Node C'} (hx : t.inn.get x = some N) :
    ∃ N', s.inn.get x = some N' ∧ N'.parent = N.parent ∧ N'.slot = N.slot := by
  have := h.inn x
  rw [hx] at this
  generalize s.inn.get x = a at this
  cases this with
  | some hn => exact ⟨_, rfl, hn.parent, hn.slot⟩

theorem TreeSame.get_right (h : TreeSame s t) {x : Nat} {N : Node C} (hx : s.inn.get x = some N) :
    ∃ N', t.inn.get x = some N' := by
  have := h.inn x
  rw [hx] at this
  generalize t.inn.get x = a at this
  cases this with
  | some hn => exact ⟨_, rfl⟩

theorem TreeSame.leavesAt (h : TreeSame s t) : ∀ n x, leavesAt s n x = leavesAt t n x := by
  intro n
  induction n with
  | zero => intro x; rfl
  | succ n ih =>
    intro x
    simp only [GB.leavesAt, h.kids x]
    congr 1
    funext a
    cases a with
    | leaf l => rfl
    | internal y => exact ih y

theorem TreeSame.abs (h : TreeSame s t) : abs s = abs t := by
  simp only [GB.abs, entries, order, h.len, h.root, h.leavesAt, entriesOf, elm, h.lf]

theorem TreeSame.wf {lvl : Nat → Nat} {k : Nat} (h : TreeSame s t) (w : WF t lvl k) : WF s lvl k where
  root := by
    obtain ⟨N, h1, h2⟩ := w.root
    obtain ⟨N', q1, q2, -⟩ := h.get_left h1
    exact ⟨N', by rw [h.root]; exact q1, q2.trans h2⟩
  root_lvl := by rw [h.root]; exact w.root_lvl
  h_pos := w.h_pos
  h_le := by rw [h.len]; exact w.h_le
  kid_in := by
    intro p i y he
    rw [Edge, h.kids] at he
    obtain ⟨h1, N, h2, h3, h4⟩ := w.kid_in p i y he
    obtain ⟨N', q1, q2, q3⟩ := h.get_left h2
    exact ⟨h1, N', q1, q2.trans h3, q3.trans h4⟩
  kid_lf := by
    intro p i l he
    rw [Edge, h.kids] at he
    rw [h.lf]
    exact w.kid_lf p i l he
  uniq := by
    intro p i j l h1 h2
    rw [Edge, h.kids] at h1 h2
    exact w.uniq p i j l h1 h2
  lvl_pos := by
    intro p N hN
    obtain ⟨N', q⟩ := h.get_right hN
    exact w.lvl_pos p N' q
  par_in := by
    intro y M hM hr
    obtain ⟨N', q⟩ := h.get_right hM
    obtain ⟨p, i, hp⟩ := w.par_in y N' q (by rw [← h.root]; exact hr)
    exact ⟨p, i, by rw [Edge, h.kids]; exact hp⟩
  par_lf := by
    intro l L hl
    rw [h.lf] at hl
    obtain ⟨p, i, hp⟩ := w.par_lf l L hl
    exact ⟨p, i, by rw [Edge, h.kids]; exact hp⟩

theorem TreeSame.ne (h : TreeSame s t) (ne : NE t) : NE s := by
  intro y hy hr hc
  rw [h.lnk] at hy
  rw [h.root] at hr
  apply ne y hy hr
  have := h.kids y
  rw [kids_chs, kids_chs, hc] at this
  exact List.map_eq_nil_iff.mp this.symm

end

theorem newTree_rel (B : Trait E C D) (B' : Trait E C' D') : TreeSame (newTree B) (newTree B') where
  len := rfl
  inn := by
    intro x
    match x with
    | 0 => exact .some ⟨rfl, rfl, rfl⟩
    | n + 1 => exact .none
  lf := rfl
  root := rfl

theorem Op.run_rel {B : Trait E C D} {B' : Trait E C' D'} (hb : ElemSame B B') (ct : CacheTotal B) (ct' : CacheTotal B')
    {s : Tree E C} {t : Tree E C'} (h : TreeSame s t) (o : Op E) : MRel TreeSame (o.run B s) (o.run B' t) := by
  cases o with
  | push e => exact MRel.bind (push_rel hb ct ct' h e) fun _ _ h => MRel.ok h.2
  | prepend e => exact MRel.bind (prepend_rel hb ct ct' h e) fun _ _ h => MRel.ok h.2
  | insertAt c e => exact MRel.bind (insertByPath_rel hb ct ct' h c e) fun _ _ h => MRel.ok h.2
  | remove c => exact MRel.bind (removeLeaf_rel hb ct ct' h c) fun _ _ h => MRel.ok h.2
  | clear => exact MRel.ok (newTree_rel B B')

theorem runAll_rel {B : Trait E C D} {B' : Trait E C' D'} (hb : ElemSame B B') (ct : CacheTotal B) (ct' : CacheTotal B') :
    ∀ (os : List (Op E)) {s : Tree E C} {t : Tree E C'}, TreeSame s t → MRel TreeSame (runAll B s os) (runAll B' t os) := by
  intro os
  induction os with
  | nil => intro s t h; exact MRel.ok h
  | cons o os ih =>
    intro s t h
    exact MRel.bind (Op.run_rel hb ct ct' h o) fun _ _ h => ih h

/-- the trait without caches is like the one with caches on the elements -/
theorem bare_same (B : Trait E C D) : ElemSame B (bare B) := ⟨rfl, rfl, rfl, rfl, rfl, rfl, rfl, rfl⟩

theorem bare_total (B : Trait E C D) : CacheTotal (bare B) := ⟨fun _ _ => ⟨_, rfl⟩, fun _ _ => ⟨_, rfl⟩⟩

/-- the contract of the callbacks, for the trait without caches -/
def bareLaw {B : Trait E C D} {okE : E → Prop} (L : ElemLaw B okE) : Law (bare B) where
  total := fun _ => ()
  okC := fun _ => True
  okE := okE
  IsDiff := fun _ _ _ => True
  emptyOk := fun _ => True
  calc_ok := fun _ _ _ _ => ⟨(), rfl, fun _ => trivial⟩
  calc_empty := fun _ => ⟨(), (), rfl, trivial⟩
  dflt_empty := trivial
  total_ok := fun _ _ _ => trivial
  total_flat := fun _ _ _ _ => rfl
  total_single := fun _ _ => rfl
  elem_ok := fun _ _ => trivial
  diff_apply := fun _ _ _ _ _ => rfl
  diff_ctx := fun _ _ _ _ _ _ _ => trivial
  diff_ins := fun _ _ _ _ _ => trivial
  diff_empty := fun _ _ _ _ => trivial
  merge_right := fun a b ha hb hc => by
    obtain ⟨e, h1, h2⟩ := L.right a b ha hb hc
    exact ⟨e, h1, h2, rfl⟩
  merge_left := fun a b ha hb hc => by
    obtain ⟨e, h1, h2⟩ := L.left a b ha hb hc
    exact ⟨e, h1, h2, rfl⟩
  split := fun e i he h0 hi => by
    obtain ⟨a, b, h1, h2, h3⟩ := L.splits e i he h0 hi
    exact ⟨a, b, h1, h2, h3, rfl⟩
  tryInsert := fun e i d he hd hi => by
    rcases L.insert e i d he hd hi with ⟨e', h1, h2⟩ | h1
    · exact Or.inl ⟨e', h1, h2, fun _ => trivial⟩
    · exact Or.inr h1

theorem bareLawE {B : Trait E C D} {okE : E → Prop} (L : ElemLaw B okE) : LawE (bareLaw L) :=
  ⟨trivial, trivial, fun _ => ⟨(), rfl, fun _ => trivial⟩, fun _ _ => rfl⟩

theorem bare_spec (B : Trait E C D) (t : Seq E) (o : Op E) : o.spec (bare B) t = o.spec B t := by cases o <;> rfl

theorem bare_step {B : Trait E C D} {okE : E → Prop} (L : ElemLaw B okE) {t : Tree E Unit} {m : Fill} (hm : 1 ≤ m.lo ∧ m.lo + m.d ≤ 5)
    (hi : Inv (bareLaw L) m t) {o : Op E} (hv : o.fits B okE (abs t)) :
    ∃ t', o.run (bare B) t = .ok t' ∧ Inv (bareLaw L) m t' ∧ o.spec B (abs t) = .ok (abs t') := by
  by_cases hp : (abs t).es = [] ∧ ∃ e, o = .prepend e
  · obtain ⟨hne, e, rfl⟩ := hp
    obtain ⟨c, t', h1, -, -, h4, -⟩ := C02_empty_exact (B := bare B) (A := bareLaw L) ⟨hm.1, by omega⟩ hi hne (show okE e from hv)
    obtain ⟨c2, t2, q1, q2⟩ := C02_prepend_empty_partial (B := bare B) (A := bareLaw L) (e := e) hm.1 hi hne
    rw [h1] at q1
    cases q1
    refine ⟨t', by simp only [Op.run, h1, bind_ok, pure_ok], h4, ?_⟩
    rw [← bare_spec]
    simp only [Op.spec, q2, bind_ok, pure_ok]
  · have hv' : o.valid (bare B) (bareLaw L).okE (abs t) := by
      cases o with
      | prepend e => exact ⟨hv, fun h => hp ⟨h, e, rfl⟩⟩
      | push e => exact hv
      | insertAt c e => exact hv
      | remove c => trivial
      | clear => trivial
    obtain ⟨t', h1, h2, h3⟩ := step_spec hm (Or.inr (bareLawE L)) hi hv'
    exact ⟨t', h1, h2, by rw [← bare_spec]; exact h3⟩

theorem bare_run {B : Trait E C D} {okE : E → Prop} (L : ElemLaw B okE) {m : Fill} (hm : 1 ≤ m.lo ∧ m.lo + m.d ≤ 5) :
    ∀ (os : List (Op E)) {t : Tree E Unit}, Inv (bareLaw L) m t → fitsAll B okE (abs t) os →
    ∃ t', runAll (bare B) t os = .ok t' ∧ Inv (bareLaw L) m t' ∧ specAll B (abs t) os = .ok (abs t') := by
  intro os
  induction os with
  | nil => intro t hi _; exact ⟨t, rfl, hi, rfl⟩
  | cons o os ih =>
    intro t hi hv
    obtain ⟨t1, h1, i1, p1⟩ := bare_step L hm hi hv.1
    obtain ⟨t2, h2, i2, p2⟩ := ih i1 (hv.2 _ p1)
    exact ⟨t2, by simp only [runAll, h1, bind_ok, h2], i2, by simp only [specAll, p1, bind_ok, p2]⟩

end GB

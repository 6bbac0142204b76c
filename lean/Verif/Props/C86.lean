import Verif.Proof.SkelQuery
import Verif.Props.C16
import Verif.Props.C65
import Verif.Proof.RangesTree
import Verif.Props.C83
import Verif.Props.C85

/-!
# C86: a search that goes wrong ends at a leaf all the same

With wrong caches (C84) or a wrong finder a search may go anywhere.  It still ends, without a panic, at a leaf of the tree, whatever the caches are, as
long as the finder picks one of the children it is shown (`PicksChild`, Verif.Spec.AnyFinder).  What is done with the cursor found then affects this leaf only.
-/

namespace GB
variable {E C D Q F : Type}
open Tree

section
variable {B : Trait E C D} {okE : E → Prop} {m : Fill} {h : Nat} {s : Tree E C} {q : Query E C Q F} {arg : Q}

/-- `query_with_finder_return` with any finder on a tree with any caches: it ends at a leaf of the tree, and the answer is the one of the finder for this leaf -/
theorem C86_finder (hm : 1 ≤ m.lo) (hs : SoundH okE m h s) (hne : (abs s).es ≠ []) {okC : C → Prop} (hq : PicksChild q arg okC)
    (hcs : ∀ x c, c ∈ chs s x → okC c.cache) :
    ∃ U l e W fd found, (abs s).es = U ++ (l, e) :: W ∧
      queryWithFinder q s arg = (do
        let ((offset, lfound), fd) ← q.confirm fd arg e
        pure (some ⟨⟨l, offset⟩, found && lfound⟩, fd) : M _) := by
  obtain ⟨lvl, w⟩ := hs.ex
  exact query_any w (Sz.ne hs.sz hm) hne hq hcs

/-- on an empty tree the search finds nothing -/
theorem C86_empty (hm : 1 ≤ m.lo) (hs : SoundH okE m h s) (hes : (abs s).es = []) : query q s arg = .ok none := by
  obtain ⟨lvl, w⟩ := hs.ex
  have ho : order s = [] := by
    have := entries_fst w
    have he : entries s = [] := hes
    rw [he] at this
    exact this.symm
  simp only [query, queryWithFinder, isEmpty_spec w (Sz.ne hs.sz hm), ho, bind_ok, List.isEmpty_nil, if_true, pure_ok]

/-- if the finder also answers with offsets within the elements, the cursor found is one of the tree -/
theorem C86_query (hm : 1 ≤ m.lo) (hs : SoundH okE m h s) (hne : (abs s).es ≠ []) {okC : C → Prop} (hq : PicksChild q arg okC)
    (hcs : ∀ x c, c ∈ chs s x → okC c.cache) (hqe : PicksOffset B okE q arg) :
    ∃ U e W r, (abs s).es = U ++ (r.cursor.leaf, e) :: W ∧ r.cursor.offset ≤ B.rleLen e ∧ query q s arg = .ok (some r) := by
  obtain ⟨U, l, e, W, fd, found, h1, h2⟩ := C86_finder hm hs hne hq hcs
  obtain ⟨o, f, fd', h3, h4⟩ := hqe fd e (hs.okEs (l, e) (by rw [h1]; simp))
  exact ⟨U, e, W, ⟨⟨l, o⟩, found && f⟩, h1, h4, by rw [query, h2, h3]; rfl⟩

/-- `insert` by such a search puts the element in front of, behind, or into some leaf, and keeps all others -/
theorem C86_insert (L : ElemLaw B okE) (ct : CacheTotal B) (hm : 1 ≤ m.lo ∧ m.lo + m.d ≤ 5) (hs : SoundH okE m h s) (hne : (abs s).es ≠ []) {okC : C → Prop}
    (hq : PicksChild q arg okC) (hcs : ∀ x c, c ∈ chs s x → okC c.cache) (hqe : PicksOffset B okE q arg) {d : E} (hd : okE d) :
    ∃ cur r s' h' t, insert B q s arg d = .ok (r, s') ∧ (∃ x, (cur.leaf, x) ∈ (abs s).es ∧ cur.offset ≤ B.rleLen x) ∧
      specInsert B (abs s) cur d = .ok (t, abs s') ∧ SoundH okE m h' s' := by
  obtain ⟨U, e, W, r, h1, h2, h3⟩ := C86_query hm.1 hs hne hq hcs hqe
  have hmem : (r.cursor.leaf, e) ∈ (abs s).es := by rw [h1]; simp
  obtain ⟨s', h', p1, p2, p3⟩ := C85_op L ct hm hs (o := .insertAt r.cursor d) ⟨hd, e, hmem, h2⟩
  simp only [Op.run] at p1
  simp only [Op.spec] at p2
  cases q1 : insertByPath B s r.cursor d with
  | error x => rw [q1] at p1; cases p1
  | ok y =>
    cases q2 : specInsert B (abs s) r.cursor d with
    | error x => rw [q2] at p2; cases p2
    | ok z =>
      rw [q1] at p1
      rw [q2] at p2
      have hz : z.2 = abs s' := Except.ok.inj p2
      have hy : y.2 = s' := Except.ok.inj p1
      subst hy
      exact ⟨r.cursor, y.1, y.2, h', z.1, by simp only [insert, h3, bind_ok, q1], ⟨e, hmem, h2⟩, by rw [q2, ← hz], p3⟩

/-- removing the leaf found removes exactly one element, whatever offset the finder answers with -/
theorem C86_remove (L : ElemLaw B okE) (ct : CacheTotal B) (hm : 1 ≤ m.lo ∧ m.lo + m.d ≤ 5) (hs : SoundH okE m h s) (hne : (abs s).es ≠ []) {okC : C → Prop}
    (hq : PicksChild q arg okC) (hcs : ∀ x c, c ∈ chs s x → okC c.cache) (hqe : ∀ fd e, okE e → ∃ x, q.confirm fd arg e = .ok x) :
    ∃ U e W r s' h', (abs s).es = U ++ (r.cursor.leaf, e) :: W ∧ query q s arg = .ok (some r) ∧ removeLeaf B s r.cursor = .ok (some e, s') ∧
      abs s' = ⟨(abs s).next, U ++ W⟩ ∧ SoundH okE m h' s' := by
  obtain ⟨U, l, e, W, fd, found, h1, h2⟩ := C86_finder hm.1 hs hne hq hcs
  obtain ⟨⟨⟨o, f⟩, fd'⟩, h3⟩ := hqe fd e (hs.okEs (l, e) (by rw [h1]; simp))
  have ts := strip_same s
  have hr := removeLeaf_rel (bare_same B) ct (bare_total B) ts ⟨l, o⟩
  obtain ⟨t', p1, ⟨h', p2⟩, p3⟩ := C04_remove_leaf (B := bare B) (A := bareLaw L) (s := strip s) (cur := ⟨l, o⟩) ⟨hm.1, by omega⟩ (.inr (bareLawE L)) ⟨h, hs.strip L⟩
    (by rw [← ts.abs]; exact h1)
  rw [p1] at hr
  obtain ⟨⟨x, s'⟩, e1, hx, ts'⟩ := hr.of_ok
  cases hx
  exact ⟨U, e, W, ⟨⟨l, o⟩, found && f⟩, s', h', h1, by rw [query, h2, h3]; rfl, e1, by rw [ts'.abs, ts.abs]; exact p3, ts'.sound p2.sound⟩

/-- the neighbours of a leaf, the ends of the tree and the range iterator do not depend on caches -/
theorem C86_walk (hm : 1 ≤ m.lo) (hs : SoundH okE m h s) :
    firstLeaf s = .ok ((abs s).es.head?.map Prod.fst) ∧ lastLeaf s = .ok ((abs s).es.getLast?.map Prod.fst) ∧
    (∀ (c : Cursor) e U V, (abs s).es = U ++ (c.leaf, e) :: V →
      nextElem s c = .ok (V.head?.map fun x => ⟨x.1, 0⟩) ∧ prevElem s c = .ok (U.getLast?.map fun x => ⟨x.1, 0⟩)) ∧
    (h ≤ 9 → ∀ (start stop : Cursor) (incl : Bool) e U M V, (abs s).es = U ++ M ++ (stop.leaf, e) :: V →
      (M ++ [(stop.leaf, e)]).head?.map Prod.fst = some start.leaf →
      iterRange B s (.included start) (if incl then .included stop else .excluded stop) =
        .ok ((M ++ if stop.offset = 0 ∧ incl = false then [] else [(stop.leaf, e)]).map (C16_slice start stop))) := by
  obtain ⟨lvl, w⟩ := hs.ex
  have ne := Sz.ne hs.sz hm
  have hf := firstLeaf_spec w ne
  have hl := lastLeaf_spec w ne
  rw [← entries_fst w, List.head?_map] at hf
  rw [← entries_fst w, List.getLast?_map] at hl
  refine ⟨hf, hl, fun c e U V hc => ⟨nextElem_entries w ne hc, prevElem_entries w ne hc⟩, ?_⟩
  intro hh start stop incl e U M V hc hst
  have := iterRangeCore_spec (incl := incl) w ne hh hc hst
  cases incl
  · simp only [iterRange, pure_ok, bind_ok, Bool.false_eq_true, if_false]
    rw [this]
    simp only [and_true]
    rfl
  · simp only [iterRange, pure_ok, bind_ok, if_true]
    exact this

end

/-! The finders of the crate. -/

/-- the loop over the children ends within them -/
theorem lenLoop_lt (getLen : C → Nat) : ∀ (cs : List (Child C)) (i a b : Nat) {r : Nat × Idx × Nat}, lenLoop getLen cs i a b = .inl r → r.1 < i + cs.length := by
  intro cs
  induction cs with
  | nil => intro i a b r h; cases h
  | cons c cs ih =>
    intro i a b r h
    rw [lenLoop] at h
    split at h
    · have := ih _ _ _ h
      simp only [List.length_cons]; omega
    · cases h
      simp only [List.length_cons]; omega

/-- the finder by length picks one of the children, whatever the caches say -/
theorem C86_len_picks {B : Trait E C D} (getLen : C → Nat) (i : Nat) : PicksChild (lenQuery B getLen) i fun _ => True := by
  intro fd cs hne _
  cases cs with
  | nil => exact absurd rfl hne
  | cons c cs =>
    simp only [lenQuery, lenFindNode, List.head?_cons, unwrap_some, bind_ok]
    cases hl : lenLoop getLen (c :: cs) 0 fd.left fd.left with
    | inl r =>
      obtain ⟨j, a, left⟩ := r
      have := lenLoop_lt getLen _ _ _ _ hl
      exact ⟨_, _, rfl, by simpa using this⟩
    | inr r =>
      obtain ⟨x, y⟩ := r
      obtain ⟨z, hz⟩ : ∃ z, (c :: cs).getLast? = some z := ⟨_, List.getLast?_cons⟩
      simp only [hz, unwrap_some, bind_ok, pure_ok]
      exact ⟨_, _, rfl, by simp⟩

/-- a search by length never panics, whatever the caches say; it ends at a leaf of the tree, possibly with an offset behind its end -/
theorem C86_len {B : Trait E C D} {okE : E → Prop} {m : Fill} {h : Nat} {s : Tree E C} (hm : 1 ≤ m.lo) (hs : SoundH okE m h s) (hne : (abs s).es ≠ [])
    (getLen : C → Nat) (i : Nat) :
    ∃ U e W r, (abs s).es = U ++ (r.cursor.leaf, e) :: W ∧ query (lenQuery B getLen) s i = .ok (some r) := by
  obtain ⟨U, l, e, W, fd, found, h1, h2⟩ := C86_finder hm hs hne (C86_len_picks (B := B) getLen i) fun _ _ _ => trivial
  exact ⟨U, e, W, ⟨⟨l, fd.left⟩, found && decide (fd.left < B.rleLen e)⟩, h1, by rw [query, h2]; rfl⟩

/-- `insert` at a length on a tree with any caches: a panic, or the element is inserted at some cursor of the tree and nothing else changes -/
theorem C86_len_insert {B : Trait E C D} {okE : E → Prop} {m : Fill} {h : Nat} {s : Tree E C} (L : ElemLaw B okE) (ct : CacheTotal B)
    (hm : 1 ≤ m.lo ∧ m.lo + m.d ≤ 5) (hs : SoundH okE m h s) (hne : (abs s).es ≠ []) (getLen : C → Nat) (i : Nat) {d : E} (hd : okE d)
    (ht : ∀ e o, okE e → B.rleLen e < o → B.tryInsert e o d = .error .panic ∨ ∃ d', B.tryInsert e o d = .ok (.inr d')) :
    insert B (lenQuery B getLen) s i d = .error .panic ∨
    ∃ cur r s' h' t, insert B (lenQuery B getLen) s i d = .ok (r, s') ∧ (∃ x, (cur.leaf, x) ∈ (abs s).es ∧ cur.offset ≤ B.rleLen x) ∧
      specInsert B (abs s) cur d = .ok (t, abs s') ∧ SoundH okE m h' s' := by
  obtain ⟨U, e, W, r, h1, h3⟩ := C86_len (B := B) hm.1 hs hne getLen i
  have hmem : (r.cursor.leaf, e) ∈ (abs s).es := by rw [h1]; simp
  by_cases h2 : r.cursor.offset ≤ B.rleLen e
  · right
    obtain ⟨s', h', p1, p2, p3⟩ := C85_op L ct hm hs (o := .insertAt r.cursor d) ⟨hd, e, hmem, h2⟩
    simp only [Op.run] at p1
    simp only [Op.spec] at p2
    cases q1 : insertByPath B s r.cursor d with
    | error x => rw [q1] at p1; cases p1
    | ok y =>
      cases q2 : specInsert B (abs s) r.cursor d with
      | error x => rw [q2] at p2; cases p2
      | ok z =>
        rw [q1] at p1
        rw [q2] at p2
        have hz : z.2 = abs s' := Except.ok.inj p2
        have hy : y.2 = s' := Except.ok.inj p1
        subst hy
        exact ⟨r.cursor, y.1, y.2, h', z.1, by simp only [insert, h3, bind_ok, q1], ⟨e, hmem, h2⟩, by rw [q2, ← hz], p3⟩
  · left
    have ts := strip_same s
    have hr := insertByPath_rel (bare_same B) ct (bare_total B) ts r.cursor d
    have hnd : ((abs s).es.map Prod.fst).Nodup := by rw [ts.abs]; exact Inv.nodup ⟨h, hs.strip L⟩
    have huniq : ∀ x, (r.cursor.leaf, x) ∈ (abs s).es → x = e := fun x hx => nodup_keys_eq hnd hx hmem
    have hp := C65_insert (B := bare B) (A := bareLaw L) (s := strip s) hm.1 ⟨h, hs.strip L⟩ (c := r.cursor) (d := d)
      (by
        intro x hx
        rw [← ts.abs] at hx
        rw [huniq x hx]
        exact Nat.lt_of_not_le h2)
      (by
        intro x hx
        rw [← ts.abs] at hx
        rw [huniq x hx]
        exact ht e _ (hs.okEs _ hmem) (Nat.lt_of_not_le h2))
    have := hr.of_panic.mpr hp
    simp only [insert, h3, bind_ok, this]

/-- the search of the ordered map, with any comparison and any search function that stays in range, picks one of the children if no cache is empty -/
theorem C86_ord_picks {K V : Type} [Ord K] {search : SearchFn (Child (OrdCache K))} (hse : SearchInRange search) (k : K) :
    PicksChild (ordQueryWith V search) k fun c => c ≠ none := by
  intro fd cs hne hcs
  have hpos : 0 < cs.length := List.length_pos_iff.mpr hne
  have htot : ∀ c ∈ cs, ∃ o, ordCmpChild k c = .ok o := by
    intro c hc
    obtain ⟨⟨x, y⟩, hxy⟩ := Option.ne_none_iff_exists'.mp (hcs c hc)
    simp only [ordCmpChild, hxy, unwrap_some, bind_ok]
    split
    · exact ⟨_, rfl⟩
    · split <;> exact ⟨_, rfl⟩
  rcases hse (ordCmpChild k) cs htot with ⟨i, e1, e2⟩ | ⟨i, e1, e2⟩
  · exact ⟨⟨i, 0, true⟩, (), by simp only [ordQueryWith, ordFindNodeWith, e1, bind_ok, pure_ok], e2⟩
  · exact ⟨⟨min i (cs.length - 1), if i = cs.length then 1 else 0, false⟩, (), by
      simp only [ordQueryWith, ordFindNodeWith, e1, bind_ok, pure_ok, hpos, assertM_triv], by show min i (cs.length - 1) < _; omega⟩

/-- and answers with the start or the end of the pair -/
theorem C86_ord_offset {K V : Type} [Ord K] {search : SearchFn (Child (OrdCache K))} (k : K) (ok : K × V → Prop) :
    PicksOffset (ordTrait K V) ok (ordQueryWith V search) k := by
  intro fd e _
  refine ⟨_, _, (), rfl, ?_⟩
  show (ordConfirm k e).1 ≤ 1
  simp only [ordConfirm]
  split <;> decide

/-! The tree of C84 and C85 whose caches are garbage. -/

/-- a finder that picks a child by a number that it gets from the caches, and the start of the leaf -/
def junkQuery : Query (Nat × Nat) Nat Nat Nat where
  init := fun n => n
  findNode := fun fd arg cs => .ok (⟨((cs.map Child.cache).sum * fd + arg) % cs.length, 0, true⟩, fd + 1)
  confirm := fun fd _ _ => .ok ((0, false), fd)

theorem junkPicks (n : Nat) : PicksChild junkQuery n fun _ => True :=
  fun _ _ hne _ => ⟨_, _, rfl, Nat.mod_lt _ (List.length_pos_iff.mpr hne)⟩

theorem junkOffset (n : Nat) : PicksOffset junkTrait (fun e => 0 < e.2) junkQuery n := fun _ _ _ => ⟨0, _, _, rfl, Nat.zero_le _⟩

/-- an insertion wherever this leads, and a removal -/
example (n : Nat) : ∃ s cur r s' t x y s'', runAll junkTrait (newTree junkTrait) junkOps = .ok s ∧ insert junkTrait junkQuery s n (7, 7) = .ok (r, s') ∧
    specInsert junkTrait ⟨4, [(0, (1, 2)), (3, (3, 1)), (2, (1, 3))]⟩ cur (7, 7) = .ok (t, abs s') ∧
    query junkQuery s n = .ok (some x) ∧ removeLeaf junkTrait s x.cursor = .ok (some y, s'') ∧ (abs s'').es.length = 2 := by
  obtain ⟨s, h, h1, he, hs, -⟩ := junkTree
  have hne : (abs s).es ≠ [] := by rw [he]; simp
  obtain ⟨cur, r, s', h', t, p1, -, p3, -⟩ := C86_insert junkElems junkTotal (by decide) hs hne (junkPicks n) (fun _ _ _ => trivial) (junkOffset n) (d := (7, 7)) (by decide)
  obtain ⟨U, e, W, x, s'', h'', q1, q2, q3, q4, -⟩ := C86_remove junkElems junkTotal (by decide) hs hne (junkPicks n) (fun _ _ _ => trivial) (fun fd e _ => ⟨((0, false), fd), rfl⟩)
  rw [he] at p3 q1
  refine ⟨s, cur, r, s', t, x, e, s'', h1, p1, p3, q2, q3, ?_⟩
  rw [q4]
  have := congrArg List.length q1
  simp at this
  simp
  omega

/-- a search by length: every cache of the tree has nothing to do with the lengths -/
example (i : Nat) : ∃ s U e W r, runAll junkTrait (newTree junkTrait) junkOps = .ok s ∧ (abs s).es = U ++ (r.cursor.leaf, e) :: W ∧
    query (lenQuery junkTrait id) s i = .ok (some r) := by
  obtain ⟨s, h, h1, he, hs, -⟩ := junkTree
  obtain ⟨U, e, W, r, p1, p2⟩ := C86_len (B := junkTrait) (by decide) hs (by rw [he]; simp) id i
  exact ⟨s, U, e, W, r, h1, p1, p2⟩

example : ∃ s, runAll junkTrait (newTree junkTrait) junkOps = .ok s ∧
    (insert junkTrait (lenQuery junkTrait id) s 1 (5, 5) = .error .panic ∨
    ∃ cur r s' h' t, insert junkTrait (lenQuery junkTrait id) s 1 (5, 5) = .ok (r, s') ∧ (∃ x, (cur.leaf, x) ∈ (abs s).es ∧ cur.offset ≤ junkTrait.rleLen x) ∧
      specInsert junkTrait (abs s) cur (5, 5) = .ok (t, abs s') ∧ SoundH (fun e : Nat × Nat => 0 < e.2) 5 h' s') := by
  obtain ⟨s, h, h1, he, hs, -⟩ := junkTree
  exact ⟨s, h1, C86_len_insert junkElems junkTotal (by decide) hs (by rw [he]; simp) id 1 (by decide) fun _ _ _ _ => .inr ⟨_, rfl⟩⟩

example : ∃ s, runAll junkTrait (newTree junkTrait) junkOps = .ok s ∧ firstLeaf s = .ok (some 0) ∧ lastLeaf s = .ok (some 2) ∧
    nextElem s ⟨0, 1⟩ = .ok (some ⟨3, 0⟩) ∧ prevElem s ⟨2, 0⟩ = .ok (some ⟨3, 0⟩) := by
  obtain ⟨s, h, h1, he, hs, -⟩ := junkTree
  obtain ⟨p1, p2, p3, -⟩ := C86_walk (B := junkTrait) (by decide) hs
  refine ⟨s, h1, by rw [p1, he]; rfl, by rw [p2, he]; rfl, (p3 ⟨0, 1⟩ (1, 2) [] [(3, (3, 1)), (2, (1, 3))] (by rw [he]; rfl)).1,
    (p3 ⟨2, 0⟩ (1, 3) [(0, (1, 2)), (3, (3, 1))] [] (by rw [he]; rfl)).2⟩

example := C86_empty (q := junkQuery) (arg := 3) (by decide) (C85_new junkElems) (by rw [new_entries])
example (k : Nat) := @C86_ord_picks Nat Nat ⟨rps⟩ _ binSearch_range k

end GB

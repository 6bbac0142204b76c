import Verif.Proof.SkelSearch
import Verif.Proof.SkelMany
import Verif.Props.C23
import Verif.Props.C24
import Verif.Props.C86

/-!
# C87: the other operations with wrong caches, a wrong finder, or a wrong cache difference

`update_leaf_by_search` (src/lib.rs:1107-1249) goes to a leaf as `query` does, and then adds the difference that the closure reports to the caches on the way.
If the caches are wrong, or the reported difference is, the caches are wrong afterwards (C22 needs both); but the elements are those that the closure asked
for, at the leaf that the search ended at, and the tree is a valid one apart from its caches.

`insert_many_by_cursor` (src/lib.rs:677-749) and `update_leaves_with_arg_in_ranges` (src/lib.rs:1396-1503) do the same to the elements, whatever the caches are.
-/

namespace GB
variable {E C C' D D' Q F σ Arg X : Type}
open Tree

/-- what the call does to the elements and the nodes does not depend on the caches, apart from the children that the finder picks: with a finder that picks the
same children in a tree with other caches, and a closure that differs in the reported difference only, the outcome differs in the caches only -/
theorem C87_same_search {B : Trait E C D} {B' : Trait E C' D'} (hb : ElemSame B B') (ct : CacheTotal B) (ct' : CacheTotal B') {s : Tree E C} {t : Tree E C'}
    (h : TreeSame s t) (q : Query E C Q F) (arg : Q) {f : E → QueryResult → M (E × Option (D × Option E × Option E))}
    {g : E → QueryResult → M (E × Option (D' × Option E × Option E))} (hf : SearchFnSame f g) :
    query (shadow s q) t arg = query q s arg ∧
    MRel (PairRel Eq (PairRel Eq TreeSame)) (updateLeafBySearch B q s arg f) (updateLeafBySearch B' (shadow s q) t arg g) :=
  ⟨shadow_query h q arg, updateLeafBySearch_rel ct ct' hb h q arg hf⟩

/-- `insert_many_by_cursor`, with or without a cursor: equal but for the caches, or the same panic -/
theorem C87_same_insert_many {B : Trait E C D} {B' : Trait E C' D'} (hb : ElemSame B B') (ct : CacheTotal B) (ct' : CacheTotal B') {s : Tree E C} {t : Tree E C'}
    (h : TreeSame s t) (cursor : Option Cursor) (data : List E) : MRel TreeSame (insertMany B s cursor data) (insertMany B' t cursor data) :=
  insertMany_rel hb ct ct' h cursor data

/-- `update_leaves_with_arg_in_ranges`: equal but for the caches, or the same panic; in particular it does not depend on the function that computes the difference
of two caches -/
theorem C87_same_update_ranges {B : Trait E C D} {B' : Trait E C' D'} (hb : ElemSame B B') (ct : CacheTotal B) (ct' : CacheTotal B') (ho : HashOrd E)
    (f : σ → E → Arg → M (σ × E)) (st : σ) {s : Tree E C} {t : Tree E C'} (h : TreeSame s t) (args : List (Nat × Nat × Nat × Arg)) :
    MRel (PairRel Eq (PairRel Eq TreeSame)) (updateLeavesWithArg B ho f st s args) (updateLeavesWithArg B' ho f st t args) :=
  updateLeavesWithArg_rel hb ct ct' ho f st h args

section
variable {B : Trait E C D} {okE : E → Prop} {m : Fill} {h : Nat} {s : Tree E C} {q : Query E C Q F} {arg : Q} {r : QueryResult} {e : E} {U V : List (Nat × E)}

/-- a change, or a removal, at the leaf the search ends at, whatever the caches are and whatever difference the closure reports -/
theorem C87_search (L : ElemLaw B okE) (ct : CacheTotal B) (hm : 1 ≤ m.lo ∧ m.lo + m.d ≤ 5) (hs : SoundH okE m h s) (h10 : h ≤ 10)
    (hq : query q s arg = .ok (some r)) (hes : (abs s).es = U ++ (r.cursor.leaf, e) :: V) :
    ∃ fnd, (r.found = true → fnd = true) ∧
      ∀ (f : E → QueryResult → M (E × Option (D × Option E × Option E))) (e1 : E) (d : D) (n1 : Option E),
      f e ⟨r.cursor, fnd⟩ = .ok (e1, some (d, n1, none)) → okE e1 → (∀ a, n1 = some a → okE a) → (B.canRemove e1 = true → n1 = none) →
      ∃ cur ids s' h', updateLeafBySearch B q s arg f = .ok (cur, ids, s') ∧ SoundH okE m h' s' ∧
        SearchRel (abs s).next r.cursor U V (searchResults B e1 n1) cur ids (abs s').next (abs s').es := by
  have ts := strip_same s
  obtain ⟨fnd, k1, k2⟩ := C22_update_leaf_by_search (B := bare B) (A := bareLaw L) (s := strip s) (q := shadow s q) hm (hs.strip L) h10
    ((shadow_query ts q arg).trans hq) (by rw [← ts.abs]; exact hes)
  refine ⟨fnd, k1, ?_⟩
  intro f e1 d n1 hf ok1 ok2 hrm
  obtain ⟨cur, ids, t', p1, ⟨h', p2⟩, p3⟩ := k2 (bareSearchFn f) e1 () n1 (by simp only [bareSearchFn, hf]; rfl) ok1 ok2 (fun hc => ⟨hrm hc, bareLawE L⟩)
    (fun _ _ _ => rfl)
  have hr := updateLeafBySearch_rel ct (bare_total B) (bare_same B) ts q arg (bareSearchFn_same f)
  rw [p1] at hr
  obtain ⟨⟨cur', ids', s'⟩, e1, hx, hy, ts'⟩ := hr.of_ok
  cases hx
  cases hy
  have ts' : TreeSame s' t' := ts'
  refine ⟨_, _, s', h', e1, ts'.sound p2.sound, ?_⟩
  rw [ts'.abs, ts.abs]
  exact p3

/-- a change that is not reported -/
theorem C87_unreported (L : ElemLaw B okE) (ct : CacheTotal B) (hm : 1 ≤ m.lo) (hs : SoundH okE m h s) (h10 : h ≤ 10)
    (hq : query q s arg = .ok (some r)) (hes : (abs s).es = U ++ (r.cursor.leaf, e) :: V) :
    ∃ fnd, (r.found = true → fnd = true) ∧
      ∀ (f : E → QueryResult → M (E × Option (D × Option E × Option E))) (e1 : E), f e ⟨r.cursor, fnd⟩ = .ok (e1, none) → okE e1 →
      ∃ s', updateLeafBySearch B q s arg f = .ok (some r.cursor, [], s') ∧ SoundH okE m h s' ∧ abs s' = ⟨(abs s).next, U ++ (r.cursor.leaf, e1) :: V⟩ := by
  have ts := strip_same s
  obtain ⟨fnd, k1, k2⟩ := C22_unreported (B := bare B) (A := bareLaw L) (s := strip s) (q := shadow s q) hm (hs.strip L) h10
    ((shadow_query ts q arg).trans hq) (by rw [← ts.abs]; exact hes)
  refine ⟨fnd, k1, ?_⟩
  intro f e1 hf ok1
  obtain ⟨t', p1, p2, p3⟩ := k2 (bareSearchFn f) e1 (by simp only [bareSearchFn, hf]; rfl) ok1 rfl
  have hr := updateLeafBySearch_rel ct (bare_total B) (bare_same B) ts q arg (bareSearchFn_same f)
  rw [p1] at hr
  obtain ⟨⟨cur', ids', s'⟩, e1, hx, hy, ts'⟩ := hr.of_ok
  cases hx
  cases hy
  have ts' : TreeSame s' t' := ts'
  exact ⟨s', e1, ts'.sound p2.sound, by rw [ts'.abs, ts.abs]; exact p3⟩

/-- with any finder that picks one of the children it is shown, the call with a closure that accepts every element ends, and changes one leaf at most -/
theorem C87_any (L : ElemLaw B okE) (ct : CacheTotal B) (hm : 1 ≤ m.lo ∧ m.lo + m.d ≤ 5) (hs : SoundH okE m h s) (h10 : h ≤ 10) (hne : (abs s).es ≠ [])
    {okC : C → Prop} (hq : PicksChild q arg okC) (hcs : ∀ x c, c ∈ chs s x → okC c.cache) (hqe : PicksOffset B okE q arg)
    {f : E → QueryResult → M (E × Option (D × Option E × Option E))}
    (hf : ∀ x a, okE x → a.cursor.offset ≤ B.rleLen x → ∃ y d n, f x a = .ok (y, some (d, n, none)) ∧ okE y ∧ (∀ z, n = some z → okE z) ∧ (B.canRemove y = true → n = none)) :
    ∃ U e V c fnd e1 d n1 cur ids s' h', (abs s).es = U ++ (c.leaf, e) :: V ∧ c.offset ≤ B.rleLen e ∧ f e ⟨c, fnd⟩ = .ok (e1, some (d, n1, none)) ∧
      updateLeafBySearch B q s arg f = .ok (cur, ids, s') ∧ SoundH okE m h' s' ∧
      SearchRel (abs s).next c U V (searchResults B e1 n1) cur ids (abs s').next (abs s').es := by
  obtain ⟨U, e, V, r, h1, h2, h3⟩ := C86_query hm.1 hs hne hq hcs hqe
  obtain ⟨fnd, -, k2⟩ := C87_search L ct hm hs h10 h3 h1
  obtain ⟨e1, d, n1, g1, g2, g3, g4⟩ := hf e ⟨r.cursor, fnd⟩ (hs.okEs (r.cursor.leaf, e) (by rw [h1]; simp)) h2
  obtain ⟨cur, ids, s', h', p1, p2, p3⟩ := k2 f e1 d n1 g1 g2 g3 g4
  exact ⟨U, e, V, r.cursor, fnd, e1, d, n1, cur, ids, s', h', h1, h2, g1, p1, p2, p3⟩

omit r e U V in
/-- the contract on the units of elements does not mention caches -/
theorem bareContent {cont : E → List X} (K : ContentLaw B okE cont) : ContentLaw (bare B) okE cont := ⟨K.len, K.merge_right, K.merge_left, K.split, K.tryInsert⟩

/-- `insert_many_by_cursor` on a tree with any caches: as on a valid tree (C24), the units of the merged data go to the cursor, or a prefix of them to the end of
the leaf before the cursor's leaf; nothing is lost, and no leaf index changes -/
theorem C87_insert_many (L : ElemLaw B okE) (ct : CacheTotal B) {cont : E → List X} (K : ContentLaw B okE cont) (hm : 1 ≤ m.lo ∧ m.lo + m.d ≤ 5)
    (hs : SoundH okE m h s) {c : Cursor} {data : List E} (hne : data ≠ []) (hok : ∀ d ∈ data, okE d)
    (hes : (abs s).es = U ++ (c.leaf, e) :: V) (ho : c.offset ≤ B.rleLen e) :
    ∃ data' s' h' took rest, mergeAdj B data = .ok data' ∧ insertMany B s (some c) data = .ok s' ∧ SoundH okE m h' s' ∧ data' = took ++ rest ∧
      (took = [] ∨ 2 ≤ data'.length ∧ ∃ U' k y y', U = U' ++ [(k, y)] ∧ mergeIntoLeft B y data' = .ok (y', rest)) ∧
      content cont (abs s').es = splice (splice (content cont (abs s).es) (unitLen B U) (took.flatMap cont))
        (unitLen B U + (took.flatMap cont).length + c.offset) (rest.flatMap cont) ∧
      (∀ i, i ∈ (abs s).es.map Prod.fst → i ∈ (abs s').es.map Prod.fst) := by
  have ts := strip_same s
  obtain ⟨data', h1, h2⟩ := mergeAdj_ok (bareLaw L) hne hok
  obtain ⟨t', took, rest, p1, ⟨h', p2⟩, p3, p4, p5, p6⟩ := insertMany_all (B := bare B) (A := bareLaw L) (bareContent K) hm hne h1 h2 ⟨h, hs.strip L⟩
    (by rw [← ts.abs]; exact hes) ho
  have hr := insertMany_rel (bare_same B) ct (bare_total B) ts (some c) data
  rw [p1] at hr
  obtain ⟨s', e1, ts'⟩ := hr.of_ok
  refine ⟨data', s', h', took, rest, (mergeAdj_rel (bare_same B) data).trans h1, e1, ts'.sound p2.sound, p3, ?_, ?_, ?_⟩
  · rcases p4 with p4 | ⟨p4, U', k, y, y', p7, p8⟩
    · exact .inl p4
    · exact .inr ⟨p4, U', k, y, y', p7, (mergeIntoLeft_rel (bare_same B) data' y).trans p8⟩
  · rw [ts'.abs, ts.abs]; exact p5
  · rw [ts'.abs, ts.abs]; exact p6

/-- `update_leaves_with_arg_in_ranges` on a tree with any caches: as on a valid tree (C23), the units in the ranges are mapped and all others kept -/
theorem C87_update_ranges (L : ElemLaw B okE) (ct : CacheTotal B) {cont : E → List X} (K : ContentLaw B okE cont) (hm : 1 ≤ m.lo ∧ m.lo + m.d ≤ 6)
    (hs : SoundH okE m h s) {ho : HashOrd E} (hho : ∀ l, (ho.idx l).Perm l) (hcur : ∀ l, (ho.cur l).Perm l) (hgrp : ∀ l, (ho.grp l).Perm l)
    {f : σ → E → Arg → M (σ × E)} (hf : ∀ st e a, okE e → ∃ st' e', f st e a = .ok (st', e') ∧ okE e') {φ : Arg → X → X}
    (hu : ∀ st e a st' e', okE e → f st e a = .ok (st', e') → cont e' = (cont e).map (φ a)) (st : σ)
    {args : List (Nat × Nat × Nat × Arg)} (hargs : ∀ a ∈ args, ∃ e, (a.1, e) ∈ (abs s).es ∧ Fits a.2.1 a.2.2.1 (B.rleLen e)) :
    ∃ st' new s' h', updateLeavesWithArg B ho f st s args = .ok (st', new, s') ∧ SoundH okE m h' s' ∧
      content cont (abs s').es = (abs s).es.flatMap (fun x => (cont x.2).mapIdx (specUnit φ (rangesOf args x.1))) := by
  have ts := strip_same s
  obtain ⟨st', new, t', p1, ⟨h', p2⟩, p3⟩ := C23_update_units_partial (B := bare B) (A := bareLaw L) (R := fun _ _ _ => True)
    ⟨fun _ _ _ _ => rfl, fun _ _ _ _ _ _ => trivial, fun _ _ _ _ _ _ _ => trivial⟩ (fun _ _ _ _ => trivial) (bareContent K) hm ⟨h, hs.strip L⟩ hho hcur hgrp hf
    hu st (by rw [← ts.abs]; exact hargs)
  have hr := updateLeavesWithArg_rel (bare_same B) ct (bare_total B) ho f st ts args
  rw [p1] at hr
  obtain ⟨⟨x, y, s'⟩, e1, hx, hy, ts'⟩ := hr.of_ok
  cases hx
  cases hy
  have ts' : TreeSame s' t' := ts'
  exact ⟨_, _, s', h', e1, ts'.sound p2.sound, by rw [ts'.abs, ts.abs]; exact p3⟩

end

/-! The tree of C84 whose caches are garbage, the finder of C86, and a closure that halves an element and reports a wrong difference. -/

/-- the element in two parts, where it is long enough, and some number -/
def junkHalve (e : Nat × Nat) (a : QueryResult) : M ((Nat × Nat) × Option (Nat × Option (Nat × Nat) × Option (Nat × Nat))) :=
  .ok (if e.2 < 2 then ((e.1, 5), some (17, none, none)) else ((e.1, 1), some (a.cursor.leaf * 1000, some (e.1 + 10, e.2 - 1), none)))

example (n : Nat) : ∃ s cur ids s' h', runAll junkTrait (newTree junkTrait) junkOps = .ok s ∧
    updateLeafBySearch junkTrait junkQuery s n junkHalve = .ok (cur, ids, s') ∧ SoundH (fun e : Nat × Nat => 0 < e.2) 5 h' s' ∧ 3 ≤ (abs s').es.length := by
  obtain ⟨s, h, h1, he, hs, h8⟩ := junkTree
  obtain ⟨U, e, V, c, fnd, e1, d, n1, cur, ids, s', h', p1, -, p3, p4, p5, p6⟩ := C87_any junkElems junkTotal (by decide) hs (by omega) (by rw [he]; simp)
    (junkPicks n) (fun _ _ _ => trivial) (junkOffset n) (f := junkHalve) (fun x a hx _ => by
      simp only [junkHalve]
      have hx : 0 < x.2 := hx
      split
      · exact ⟨_, _, _, rfl, Nat.succ_pos 4, (fun _ h => by cases h), fun _ => rfl⟩
      · refine ⟨_, _, _, rfl, Nat.succ_pos 0, (fun _ h => by cases h; show 0 < x.2 - 1; omega), fun h => ?_⟩
        cases h)
  refine ⟨s, cur, ids, s', h', h1, p4, p5, ?_⟩
  rw [he] at p1
  have hl : U.length + (V.length + 1) = 3 := by
    have := congrArg List.length p1
    simp at this
    omega
  have hc : junkTrait.canRemove e1 = false := by
    simp only [junkHalve] at p3
    split at p3 <;> (cases p3; rfl)
  rw [searchResults, hc] at p6
  generalize (abs s').es = es at p6
  generalize (abs s').next = nx at p6
  generalize hg : (if false = true then [] else e1 :: n1.toList) = res at p6
  cases p6 with
  | gone => cases hg
  | one x => simp; omega
  | two x a => simp; omega

/-- a change that is not reported -/
example : ∃ s cur ids s' h', runAll junkTrait (newTree junkTrait) junkOps = .ok s ∧
    updateLeafBySearch junkTrait junkQuery s 1 (fun e _ => .ok ((e.1, 9), none)) = .ok (cur, ids, s') ∧ SoundH (fun e : Nat × Nat => 0 < e.2) 5 h' s' ∧
    (abs s').es.length = 3 := by
  obtain ⟨s, h, h1, he, hs, h8⟩ := junkTree
  obtain ⟨U, e, V, r, p1, -, p3⟩ := C86_query (by decide) hs (by rw [he]; simp) (junkPicks 1) (fun _ _ _ => trivial) (junkOffset 1)
  obtain ⟨fnd, -, k⟩ := C87_unreported junkElems junkTotal (by decide) hs (by omega) p3 p1
  obtain ⟨s', q1, q2, q3⟩ := k (fun e _ => .ok ((e.1, 9), none)) _ rfl (Nat.succ_pos 8)
  refine ⟨s, _, _, s', h, h1, q1, q2, ?_⟩
  rw [q3]
  rw [he] at p1
  have := congrArg List.length p1
  simp at this
  simp
  omega

theorem junkAny : ElemLaw junkTrait fun _ => True where
  right := fun _ _ _ _ _ => ⟨_, rfl, trivial⟩
  left := fun _ _ _ _ _ => ⟨_, rfl, trivial⟩
  splits := fun e i _ _ hi => ⟨(e.1, i), (e.1, e.2 - i), if_pos hi, trivial, trivial⟩
  insert := fun _ _ _ _ _ _ => Or.inr rfl

/-- one of three elements is taken out, and the reported difference is nonsense -/
example (n : Nat) : ∃ s ids s', runAll junkTrait (newTree junkTrait) junkOps = .ok s ∧
    updateLeafBySearch junkTrait junkQuery s n (fun e _ => .ok ((e.1, 0), some (12345, none, none))) = .ok (none, ids, s') ∧
    (∃ h, SoundH (fun _ : Nat × Nat => True) 5 h s') ∧ (abs s').es.length = 2 := by
  obtain ⟨s, h, h1, he, hs, h8⟩ := junkTree
  have hs : SoundH (fun _ : Nat × Nat => True) 5 h s := ⟨hs.ex, hs.sz, fun _ _ _ => trivial⟩
  obtain ⟨U, e, V, r, p1, -, p3⟩ := C86_query (B := junkTrait) (by decide) hs (by rw [he]; simp) (junkPicks n) (fun _ _ _ => trivial) (fun _ _ _ => ⟨0, _, _, rfl, Nat.zero_le _⟩)
  obtain ⟨fnd, -, k⟩ := C87_search junkAny junkTotal (by decide) hs (by omega) p3 p1
  obtain ⟨cur, ids, s', h', q1, q2, q3⟩ := k (fun e _ => .ok ((e.1, 0), some (12345, none, none))) (e.1, 0) 12345 none rfl trivial (fun _ _ => trivial) (fun _ => rfl)
  have hr : searchResults junkTrait (e.1, 0) none = [] := rfl
  rw [hr] at q3
  rw [he] at p1
  have := congrArg List.length p1
  simp at this
  generalize hes : (abs s').es = es at q3
  generalize (abs s').next = nx at q3
  cases q3
  refine ⟨s, _, s', h1, q1, ⟨h', q2⟩, ?_⟩
  rw [hes]
  simp
  omega

/-- the units of an element: its first component, as often as the second says -/
def junkUnits (e : Nat × Nat) : List Nat := List.replicate e.2 e.1

theorem junkContent : ContentLaw junkTrait (fun e => 0 < e.2) junkUnits where
  len := fun e _ => List.length_replicate
  merge_right := fun a b e _ _ hc h => by
    have hc : a.1 = b.1 := of_decide_eq_true hc
    cases h
    simp only [junkUnits, hc, List.replicate_append_replicate]
  merge_left := fun a b e _ _ hc h => by
    have hc : a.1 = b.1 := of_decide_eq_true hc
    cases h
    simp only [junkUnits, hc, List.replicate_append_replicate, Nat.add_comm]
  split := fun e i a b _ _ hi h => by
    have hi : i < e.2 := hi
    have h : (if i < e.2 then (.ok ((e.1, i), (e.1, e.2 - i)) : M _) else .error .panic) = .ok (a, b) := h
    rw [if_pos hi] at h
    cases h
    simp only [junkUnits, List.take_replicate, List.drop_replicate]
    exact ⟨by rw [Nat.min_eq_left (by omega)], trivial⟩
  tryInsert := fun e i d e' _ _ _ h => by cases h

/-- three elements into the middle of the last one -/
example : ∃ s s' h', runAll junkTrait (newTree junkTrait) junkOps = .ok s ∧ insertMany junkTrait s (some ⟨2, 1⟩) [(8, 1), (9, 2), (8, 1)] = .ok s' ∧
    SoundH (fun e : Nat × Nat => 0 < e.2) 5 h' s' ∧ content junkUnits (abs s').es = [1, 1, 3, 1, 8, 9, 9, 8, 1, 1] := by
  obtain ⟨s, h, h1, he, hs, -⟩ := junkTree
  obtain ⟨data', s', h', took, rest, p1, p2, p3, p4, p5, p6, -⟩ := C87_insert_many junkElems junkTotal junkContent (by decide) hs (c := ⟨2, 1⟩)
    (data := [(8, 1), (9, 2), (8, 1)]) (by simp) (by simp) (U := [(0, (1, 2)), (3, (3, 1))]) (V := []) (e := (1, 3)) (by rw [he]; rfl) (by decide)
  cases p1
  have ht : took = [] := by
    rcases p5 with p5 | ⟨-, U', k, y, y', q1, q2⟩
    · exact p5
    · have hy : (k, y) = (3, (3, 1)) := by
        have := congrArg List.getLast? q1
        simpa using this.symm
      cases hy
      cases q2
      have := congrArg List.length p4
      simp at this
      exact this
  subst ht
  have hr : rest = [(8, 1), (9, 2), (8, 1)] := p4.symm
  subst hr
  refine ⟨s, s', h', h1, p2, p3, ?_⟩
  rw [p6, he]
  rfl

/-- adds the argument to an element, and counts the calls -/
def junkAdd (n : Nat) (e : Nat × Nat) (k : Nat) : M (Nat × (Nat × Nat)) := .ok (n + 1, (e.1 + k, e.2))

/-- three ranges within two elements -/
example : ∃ s st new s' h', runAll junkTrait (newTree junkTrait) junkOps = .ok s ∧
    updateLeavesWithArg junkTrait ⟨List.reverse, List.reverse, List.reverse⟩ junkAdd 0 s
      [(2, 1, 2, 10), (0, 0, 1, 20), (2, 0, 2, 100)] = .ok (st, new, s') ∧
    SoundH (fun e : Nat × Nat => 0 < e.2) 5 h' s' ∧ content junkUnits (abs s').es = [21, 1, 3, 101, 111, 1] := by
  obtain ⟨s, h, h1, he, hs, -⟩ := junkTree
  obtain ⟨st, new, s', h', p1, p2, p3⟩ := C87_update_ranges junkElems junkTotal junkContent (by decide) hs (ho := ⟨List.reverse, List.reverse, List.reverse⟩)
    (fun l => List.reverse_perm l) (fun l => List.reverse_perm l) (fun l => List.reverse_perm l)
    (f := junkAdd) (fun _ _ _ he => ⟨_, _, rfl, he⟩) (φ := fun k u => u + k)
    (fun _ _ _ _ _ _ h => by cases h; simp [junkUnits]) 0 (args := [(2, 1, 2, 10), (0, 0, 1, 20), (2, 0, 2, 100)]) (by
      rw [he]
      intro a ha
      simp only [List.mem_cons, List.not_mem_nil, or_false] at ha
      rcases ha with rfl | rfl | rfl
      · exact ⟨(1, 3), by simp, by decide⟩
      · exact ⟨(1, 2), by simp, by decide⟩
      · exact ⟨(1, 3), by simp, by decide⟩)
  refine ⟨s, st, new, s', h', h1, p1, p2, ?_⟩
  rw [p3, he]
  rfl

example := C87_same_insert_many (bare_same junkTrait) junkTotal (bare_total junkTrait) (newTree_rel junkTrait (bare junkTrait)) none [(1, 1), (2, 2), (3, 3)]
example := C87_same_update_ranges (bare_same junkTrait) junkTotal (bare_total junkTrait) ⟨id, id, id⟩ junkAdd 3
  (newTree_rel junkTrait (bare junkTrait))
example := C87_same_search (bare_same junkTrait) junkTotal (bare_total junkTrait) (newTree_rel junkTrait (bare junkTrait)) junkQuery 3 (bareSearchFn_same junkHalve)

end GB

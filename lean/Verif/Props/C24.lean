import Verif.Proof.InsertMany
import Verif.Props.C25
import Verif.Proof.SampleTwo
import Verif.Props.C44

/-!
# C24: `insert_many_by_cursor`

The full statement, "the contents of the elements are spliced in order at the cursor, or appended when the cursor is
`None` on an empty tree, without a panic", is false in three ways:

* `merge_adj` may reorder the elements (C25);
* with `None` and at least two elements left after the pre-merge the call always panics, also on an empty tree:
  `create_subtrees_from_elem` assigns `parent.children[i]` in an empty vector (src/lib.rs:784);
* when the cursor is not at the start of its leaf, leading elements that can be merged into the leaf *before* the
  cursor's leaf are put there, ahead of the text left of the cursor (src/lib.rs:731-741).

`C24_insert_many_partial` covers every other case.  `C24_exact` says what happens in all cases with a cursor, and `C24_nothing_lost`
that no content is ever lost or duplicated.  The case `None` is settled by `C24_false_none` and `C24_none`.
-/

namespace GB
variable {E C D X : Type}
open Tree

/-- `None` with two or more elements left after the pre-merge panics on every tree with a root node. -/
theorem C24_false_none {B : Trait E C D} {s : Tree E C} {data data' : List E} {b : Bool} (h2 : 2 ≤ data.length)
    (hadj : mergeAdj B data = .ok data') (hl : 2 ≤ data'.length) (hs : isEmpty s = .ok b) :
    insertMany B s none data = .error .panic := by
  have hcs : ∀ d ds, createSubtrees B s (d :: ds) = .error .panic := by
    intro d ds
    have h12 : (d :: ds).take MAXC = d :: ds.take 11 := rfl
    have hget : Tree.getIn (allocLeafChild B { s with inn := (s.inn.insert ⟨none, 0, []⟩).2 } d (s.inn.insert ⟨none, 0, []⟩).1).2
        (s.inn.insert ⟨none, 0, []⟩).1 = .ok ⟨none, 0, []⟩ := by
      simp [Tree.getIn, allocLeafChild, Arena.insert, Arena.get]
    simp only [createSubtrees, subtreeParents, List.length_cons, h12, subtreeLeaves, hget, bind_ok, vset]
    rfl
  match data, h2 with
  | d1 :: d2 :: ds, _ =>
    match data', hl with
    | a :: b' :: ds', _ =>
      simp only [insertMany, hadj, bind_ok, hs, hcs]
      cases b <;> rfl

/-- The witness on the new tree: two full buffers. -/
theorem C24_false_none_empty :
    insertMany ropeTrait (newTree ropeTrait) none [⟨[1, 1], 2, 0⟩, ⟨[2, 2], 2, 0⟩] = .error .panic := rfl

/-- A tree with the chunks `11` and `2233` (capacity 4); inserting `55` and `666` at the middle of the second chunk
gives `1155`, `22`, `666 33` instead of `11`, `22`, `55`, `666`, `33`. -/
theorem C24_false_order :
    (do
      let (_, s) ← push ropeTrait (newTree ropeTrait) ⟨[1, 1, 0, 0], 2, 2⟩
      let (c, s) ← push ropeTrait s ⟨[2, 2, 3, 3], 4, 0⟩
      let s ← insertMany ropeTrait s (some ⟨c.leaf, 2⟩) [⟨[5, 5, 0, 0], 2, 2⟩, ⟨[6, 6, 6, 0], 3, 1⟩]
      let es ← iter s
      pure (es.flatMap fun x => x.toVec) : M (List UInt8)) = .ok [1, 1, 5, 5, 2, 2, 6, 6, 6, 3, 3] := by
  rfl

/-- The exact effect, for every valid tree, every cursor into it and every list of valid elements.  No panic; the result is valid.  With `data'` the result of
the pre-merge (see `C25_exact`): some prefix `took` of `data'` is put at the end of the leaf before the cursor's leaf, and the rest at the cursor.  The prefix is
empty, or it is what that leaf takes up, merging as long as it can. -/
theorem C24_exact {B : Trait E C D} {A : Law B} {cont : E → List X} (L : ContentLaw B A.okE cont) {m : Fill}
    {s : Tree E C} {c : Cursor} {U V : List (Nat × E)} {e : E} {data : List E}
    (hm : 1 ≤ m.lo ∧ m.lo + m.d ≤ 5) (hi : Inv A m s) (hes : (abs s).es = U ++ (c.leaf, e) :: V) (ho : c.offset ≤ B.rleLen e)
    (hok : ∀ d ∈ data, A.okE d) (hne : data ≠ []) :
    ∃ data' s' took rest, mergeAdj B data = .ok data' ∧ insertMany B s (some c) data = .ok s' ∧ Inv A m s' ∧ data' = took ++ rest ∧
      (took = [] ∨ 2 ≤ data'.length ∧ ∃ U' l y, U = U' ++ [(l, y)] ∧ Absorbs B y took rest) ∧
      content cont (abs s').es = splice (splice (content cont (abs s).es) (unitLen B U) (took.flatMap cont))
        (unitLen B U + (took.flatMap cont).length + c.offset) (rest.flatMap cont) ∧
      (∀ i, i ∈ (abs s).es.map Prod.fst → i ∈ (abs s').es.map Prod.fst) := by
  obtain ⟨data', h1, h2⟩ := mergeAdj_ok A hne hok
  obtain ⟨s', took, rest, k1, k2, k3, k4, k5, k6⟩ := insertMany_all L hm hne h1 h2 hi hes ho
  refine ⟨data', s', took, rest, h1, k1, k2, k3, ?_, k5, k6⟩
  rcases k4 with k4 | ⟨k0, U', k, y, y', q1, q2⟩
  · exact .inl k4
  · obtain ⟨took', q3, q4⟩ := mergeIntoLeft_absorbs q2
    have : took' = took := List.append_cancel_right (q3.symm.trans k3)
    subst this
    exact .inr ⟨k0, U', k, y, q1, q4⟩

/-- Consequence: for every valid tree, cursor and list of valid elements, no unit of content is lost, duplicated or invented, and the text already in the tree
keeps its order. -/
theorem C24_nothing_lost {B : Trait E C D} {A : Law B} {cont : E → List X} (L : ContentLaw B A.okE cont) {m : Fill}
    {s : Tree E C} {c : Cursor} {e : E} {data : List E}
    (hm : 1 ≤ m.lo ∧ m.lo + m.d ≤ 5) (hi : Inv A m s) (hc : (c.leaf, e) ∈ (abs s).es) (ho : c.offset ≤ B.rleLen e)
    (hok : ∀ d ∈ data, A.okE d) :
    ∃ s', insertMany B s (some c) data = .ok s' ∧ Inv A m s' ∧
      (content cont (abs s').es).Perm (content cont (abs s).es ++ data.flatMap cont) ∧
      (content cont (abs s).es).Sublist (content cont (abs s').es) := by
  have sp : ∀ (xs : List X) n ys, (splice xs n ys).Perm (xs ++ ys) := by
    intro xs n ys
    have h1 : (splice xs n ys).Perm (xs.take n ++ (xs.drop n ++ ys)) := by
      rw [splice, List.append_assoc]
      exact List.perm_append_comm.append_left _
    rwa [← List.append_assoc, List.take_append_drop] at h1
  have ss : ∀ (xs : List X) n ys, xs.Sublist (splice xs n ys) := by
    intro xs n ys
    have h1 : (xs.take n ++ xs.drop n).Sublist (splice xs n ys) := by
      rw [splice, List.append_assoc]
      exact (List.Sublist.refl _).append (List.sublist_append_right _ _)
    rwa [List.take_append_drop] at h1
  by_cases hne : data = []
  · subst hne
    exact ⟨s, rfl, hi, by simp, .refl _⟩
  · obtain ⟨U, V, hes⟩ := List.append_of_mem hc
    obtain ⟨data', s', took, rest, h1, h2, h3, h4, -, h6, -⟩ := C24_exact L hm hi hes ho hok hne
    obtain ⟨r, g1, -, g2⟩ := C25_content_perm A L hne hok
    rw [h1] at g1
    cases g1
    refine ⟨s', h2, h3, ?_, ?_⟩
    · rw [h6]
      refine (sp _ _ _).trans (((sp _ _ _).append_right _).trans ?_)
      rw [List.append_assoc]
      refine List.Perm.append_left _ ?_
      rw [h4, List.flatMap_append] at g2
      exact g2
    · rw [h6]
      exact (ss _ _ _).trans (ss _ _ _)

/-- `None`, if the pre-merge leaves one element: the element is pushed. -/
theorem C24_none {B : Trait E C D} {A : Law B} {cont : E → List X} (L : ContentLaw B A.okE cont) {m : Fill} {s : Tree E C} {data : List E} {d : E}
    (hm : 1 ≤ m.lo ∧ m.lo + m.d ≤ 6) (hi : Inv A m s) (hne : data ≠ []) (hok : ∀ d ∈ data, A.okE d) (hadj : mergeAdj B data = .ok [d]) :
    ∃ s', insertMany B s none data = .ok s' ∧ Inv A m s' ∧ content cont (abs s').es = content cont (abs s).es ++ data.flatMap cont := by
  obtain ⟨t, h1, -⟩ := greedy_ok A data.length data (Nat.le_refl _) hok
  obtain ⟨r, h3, h4⟩ := C25_permutation B hne h1
  rw [hadj] at h3
  cases h3
  have ht : t = [d] := List.perm_singleton.mp h4.symm
  subst ht
  have hcon := greedy_content L data.length data _ (Nat.le_refl _) hok h1
  obtain ⟨r, h5, h6⟩ := mergeAdj_ok A hne hok
  rw [hadj] at h5
  cases h5
  obtain ⟨c, s', -, -, k1, k2, k3, -⟩ := C01_push_content L hm hi (h6 d (by simp))
  refine ⟨s', ?_, k2, by rw [k3, ← hcon]; simp⟩
  match data, hne with
  | [x], _ =>
    cases hadj
    simp only [insertMany, k1, bind_ok]
    rfl
  | _ :: _ :: _, _ =>
    simp only [insertMany, hadj, bind_ok, k1]
    rfl

/-- Every valid tree and every cursor into it; every list of elements on which the pre-merge keeps the order (see
`C25_order_partial`; in particular every list without mergeable neighbours), unless elements are merged into the leaf
before the cursor's leaf while the cursor is not at the start of its leaf.  No panic, the result is valid, the contents
are spliced in order at the position of the cursor, and every leaf of the old tree is still in the tree. -/
theorem C24_insert_many_partial {B : Trait E C D} {A : Law B} {cont : E → List X} (L : ContentLaw B A.okE cont) {m : Fill}
    {s : Tree E C} {c : Cursor} {U V : List (Nat × E)} {e : E} {data data' : List E}
    (hm : 1 ≤ m.lo ∧ m.lo + m.d ≤ 5) (hi : Inv A m s) (hes : (abs s).es = U ++ (c.leaf, e) :: V) (ho : c.offset ≤ B.rleLen e)
    (hok : ∀ d ∈ data, A.okE d) (hne : data ≠ [])
    (hadj : mergeAdj B data = .ok data') (hok' : ∀ d ∈ data', A.okE d) (hcont : data'.flatMap cont = data.flatMap cont)
    (hleft : data'.length ≤ 1 ∨ c.offset = 0 ∨ ∀ U' l x d ds, U = U' ++ [(l, x)] → data' = d :: ds → B.canMerge x d = false) :
    ∃ s', insertMany B s (some c) data = .ok s' ∧ Inv A m s' ∧
      content cont (abs s').es = splice (content cont (abs s).es) (unitLen B U + c.offset) (data.flatMap cont) ∧
      (∀ i, i ∈ (abs s).es.map Prod.fst → i ∈ (abs s').es.map Prod.fst) := by
  obtain ⟨s', h1, h2, h3, -, h5, -⟩ := insertMany_spec L hm hne hok hadj hok' hcont hi hes ho hleft
  exact ⟨s', h1, h2, h3, h5⟩

/-- Chunks of a string, as the rope inserts them, always go to the right place in a rope without empty chunks. -/
theorem C24_rope_chunks {cap : Nat} {m : Fill} (hcap : 0 < cap) {s : Tree GapBuf Int} {c : Cursor} {U V : List (Nat × GapBuf)} {e : GapBuf}
    {str : List UInt8} {gs : List GapBuf} (hm : 1 ≤ m.lo ∧ m.lo + m.d ≤ 5) (hi : Inv (ropeLaw cap) m s)
    (hes : (abs s).es = U ++ (c.leaf, e) :: V) (ho : c.offset ≤ e.len) (hpos : ∀ x ∈ (abs s).es, 0 < x.2.len)
    (hgs : GapBuf.fromStr cap str = .ok gs) :
    ∃ s', insertMany ropeTrait s (some c) gs = .ok s' ∧ Inv (ropeLaw cap) m s' ∧
      content GapBuf.toVec (abs s').es =
        splice (content GapBuf.toVec (abs s).es) (unitLen ropeTrait U + c.offset) str ∧
      (∀ P l, Behind (abs s) P l c → ∃ e Q, (abs s').es = P ++ (l, e) :: Q) ∧ (∀ x ∈ (abs s').es, 0 < x.2.len) := by
  obtain ⟨gs', h1, h2, h3, h4⟩ := GapBuf.fromStrF_spec cap hcap _ str (Nat.lt_succ_self _)
  have : gs' = gs := by rw [GapBuf.fromStr, h1] at hgs; cases hgs; rfl
  subst this
  by_cases hne : gs' = []
  · subst hne
    have : str = [] := by simpa using h2.symm
    subst this
    refine ⟨s, rfl, hi, by simp [splice], ?_, hpos⟩
    rintro P l ⟨x, Q, hx, -⟩
    exact ⟨x, Q, hx⟩
  · have hadj := C25_rope_chunks hcap hgs hne
    have hok : ∀ d ∈ gs', (ropeLaw cap).okE d := fun d hd => ⟨(h3 d hd).1, (h3 d hd).2.1⟩
    have hlen : ∀ d ∈ gs', 0 < d.len := fun d hd => by
      rw [← GapBuf.toVec_length d (h3 d hd).1]; exact List.length_pos_iff.mpr (h3 d hd).2.2
    obtain ⟨s', k1, k2, k3, k4, -, k6⟩ := insertMany_spec (ropeContent cap) hm hne hok hadj hok rfl hi hes ho (by
      by_cases hl : gs'.length ≤ 1
      · exact .inl hl
      · refine .inr (.inr ?_)
        rintro U' l x d ds rfl rfl
        have hx := hi.okE (l, x) (by rw [show entries s = _ from hes]; simp)
        have hx0 := hpos (l, x) (by rw [hes]; simp)
        have hd := h3 d (by simp)
        have hfull := h4 d (by
          match ds, hl with
          | [], hl => simp at hl
          | d' :: ds, _ => simp [List.dropLast])
        have l1 : d.len = cap := by rw [← hfull, GapBuf.toVec_length d hd.1]
        have hxc : x.capacity = cap := hx.2
        show decide (x.len + d.len ≤ x.capacity) = false
        rw [decide_eq_false_iff_not]
        simp only at hx0
        omega)
    refine ⟨s', k1, k2, ?_, k4, k6 hpos hlen⟩
    rw [k3, h2]

example := C24_rope_chunks (cap := 4) (m := 5) (by decide) (s := ropeSample) (c := ⟨17, 1⟩) (str := [9, 8, 7, 6, 5, 4, 3, 2, 1]) (by decide)
  ropeSample_spec.1 (e := ⟨[17, 1, 2, 0], 3, 1⟩) (U := (List.range 17).map fun i => (i, ⟨[UInt8.ofNat i, 1, 2, 0], 3, 1⟩))
  (V := (List.range 12).map fun i => (i + 18, ⟨[UInt8.ofNat (i + 18), 1, 2, 0], 3, 1⟩))
  (by rw [ropeSample_spec.2]; rfl) (by decide) (by rw [ropeSample_spec.2]; decide) rfl

/-- two buffers of which the first fits into the chunk before the cursor's chunk: the case in which the order is wrong -/
example := C24_exact (ropeContent 4) (m := 5) (s := ropeSample) (c := ⟨17, 1⟩) (by decide) ropeSample_spec.1
  (e := ⟨[17, 1, 2, 0], 3, 1⟩) (U := (List.range 17).map fun i => (i, ⟨[UInt8.ofNat i, 1, 2, 0], 3, 1⟩))
  (V := (List.range 12).map fun i => (i + 18, ⟨[UInt8.ofNat (i + 18), 1, 2, 0], 3, 1⟩))
  (by rw [ropeSample_spec.2]; rfl) (by decide) (data := [⟨[7, 0, 0, 0], 1, 3⟩, ⟨[7, 8, 9, 6], 4, 0⟩])
  (by intro d hd; simp at hd; rcases hd with rfl | rfl <;> exact ⟨by simp [GapBuf.WF], rfl⟩) (by simp)

example := C24_nothing_lost (ropeContent 4) (m := 5) (s := ropeSample) (c := ⟨17, 1⟩) (by decide) ropeSample_spec.1
  (e := ⟨[17, 1, 2, 0], 3, 1⟩) (by rw [ropeSample_spec.2]; decide) (by decide) (data := [⟨[7, 0, 0, 0], 1, 3⟩, ⟨[7, 8, 9, 6], 4, 0⟩])
  (by intro d hd; simp at hd; rcases hd with rfl | rfl <;> exact ⟨by simp [GapBuf.WF], rfl⟩)

example := C24_none (ropeContent 4) (m := 5) (by decide) ropeSample_spec.1 (data := [⟨[7, 0, 0, 0], 1, 3⟩, ⟨[7, 8, 9, 0], 3, 1⟩]) (by simp)
  (by intro d hd; simp at hd; rcases hd with rfl | rfl <;> exact ⟨by simp [GapBuf.WF], rfl⟩) rfl

/-- inserting three buffers inside a chunk of the sample rope -/
example := C24_insert_many_partial (ropeContent 4) (m := 5) (s := ropeSample) (c := ⟨17, 1⟩) (by decide) ropeSample_spec.1
  (e := ⟨[17, 1, 2, 0], 3, 1⟩) (U := (List.range 17).map fun i => (i, ⟨[UInt8.ofNat i, 1, 2, 0], 3, 1⟩))
  (V := (List.range 12).map fun i => (i + 18, ⟨[UInt8.ofNat (i + 18), 1, 2, 0], 3, 1⟩))
  (by rw [ropeSample_spec.2]; rfl) (by decide) (data := [⟨[7, 8, 9, 0], 3, 1⟩, ⟨[7, 8, 9, 0], 3, 1⟩, ⟨[7, 8, 9, 0], 3, 1⟩])
  (by intro d hd; simp at hd; subst hd; exact ⟨by simp [GapBuf.WF], rfl⟩) (by simp) rfl
  (by intro d hd; simp at hd; subst hd; exact ⟨by simp [GapBuf.WF], rfl⟩) rfl (.inr (.inr (by
    intro U' l x d ds h1 h2
    cases h2
    have := congrArg List.getLast? h1
    rw [List.getLast?_append] at this
    cases this
    rfl)))

example : insertMany ropeTrait ropeSample none [chunk 40, chunk 41] = .error .panic :=
  C24_false_none (b := false) (by decide) rfl (by decide) (by
    have := (C44_empty (Q := Unit) (F := Unit) (by decide) ropeSample_spec.1).1
    rw [this, ropeSample_es]; rfl)

end GB

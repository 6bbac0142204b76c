import Verif.Proof.Search2
import Verif.Proof.SearchCap
import Verif.Proof.SpinePush
import Verif.Props.C09
import Verif.Props.C20
import Verif.Proof.SampleTwo

/-!
# C22: `update_leaf_by_search` updates the found leaf

The path to the leaf is kept in a `NodePath` with room for 10 nodes: on trees of at most 10 levels the call does what it should, on
higher trees it panics (`C22_too_high`).
-/

namespace GB
variable {E C D Q F X : Type}
open Tree

theorem query_with {q : Query E C Q F} {s : Tree E C} {arg : Q} {r : QueryResult} (hq : query q s arg = .ok (some r)) :
    ∃ fd, queryWithFinder q s arg = .ok (some r, fd) := by
  rw [query] at hq
  obtain ⟨⟨r', fd⟩, h1, h2⟩ := bind_inv hq
  cases h2
  exact ⟨fd, h1⟩

/-- Both outcomes for one and the same flag: the closure reports an exact diff, or it reports no change. -/
theorem C22_search {B : Trait E C D} {A : Law B} {m : Fill} {h : Nat} {s : Tree E C} {q : Query E C Q F} {arg : Q} {r : QueryResult}
    {e : E} {U V : List (Nat × E)} (hm : 1 ≤ m.lo) (hi : InvH A m h s) (h10 : h ≤ 10)
    (hq : query q s arg = .ok (some r)) (hes : (abs s).es = U ++ (r.cursor.leaf, e) :: V) :
    ∃ fnd, (r.found = true → fnd = true) ∧
      (m.lo + m.d ≤ 5 → ∀ (f : E → QueryResult → M (E × Option (D × Option E × Option E))) (e1 : E) (d : D) (n1 : Option E),
      f e ⟨r.cursor, fnd⟩ = .ok (e1, some (d, n1, none)) → A.okE e1 → (∀ a, n1 = some a → A.okE a) →
      (B.canRemove e1 = true → n1 = none ∧ LawE A) →
      Exact A (B.elemCache e) d ((searchResults B e1 n1).map B.elemCache) →
      ∃ cur ids s', updateLeafBySearch B q s arg f = .ok (cur, ids, s') ∧ Inv A m s' ∧
        SearchRel (abs s).next r.cursor U V (searchResults B e1 n1) cur ids (abs s').next (abs s').es) ∧
      (∀ (f : E → QueryResult → M (E × Option (D × Option E × Option E))) (e1 : E),
      f e ⟨r.cursor, fnd⟩ = .ok (e1, none) → A.okE e1 → B.elemCache e1 = B.elemCache e →
      ∃ s', updateLeafBySearch B q s arg f = .ok (some r.cursor, [], s') ∧ InvH A m h s' ∧
        abs s' = ⟨(abs s).next, U ++ (r.cursor.leaf, e1) :: V⟩) := by
  obtain ⟨⟨lvl, g⟩, sz⟩ := hi
  have ne : NE s := InvH.ne (A := A) (h := h) ⟨⟨lvl, g⟩, sz⟩ hm
  obtain ⟨fd, hq⟩ := query_with hq
  obtain ⟨h1, p, i, arr, cp, rest, fdm, fnd, k1, k2, k3, k4, k5, k6⟩ := search_start g ne h10 hq hes
  refine ⟨fnd, k6, ?_, ?_⟩
  · intro hm5
    have hm : 1 ≤ m.lo ∧ m.lo + m.d ≤ 5 := ⟨hm, hm5⟩
    intro f e1 d n1 hf ok1 okn hrem ex
    have hf' : f e ⟨⟨r.cursor.leaf, r.cursor.offset⟩, fnd⟩ = .ok (e1, some (d, n1, none)) := hf
    unfold updateLeafBySearch
    simp only [h1, bind_ok, Bool.false_eq_true, if_false, k1, getLf_ok k4, k5, hf']
    by_cases hr : B.canRemove e1 = true
    · obtain ⟨rfl, le⟩ := hrem hr
      simp only [searchResults, hr, if_true] at ex ⊢
      obtain ⟨s', lvl', h', s1, s2, s3, s4, s5⟩ := search_del (e1 := e1) hm le g sz k2 k4 ex k3 hes
      refine ⟨none, [], s', ?_, ⟨h', ⟨lvl', s2⟩, s3⟩, ?_⟩
      · simp only [Option.isNone_none, assertM, if_true, pure_ok, bind_ok]
        exact s1
      · show SearchRel _ _ _ _ _ _ _ s'.lf.items.length (entries s')
        rw [s4, s5]
        exact .gone
    · simp only [searchResults, hr, Bool.false_eq_true, if_false] at ex ⊢
      cases n1 with
      | none =>
        obtain ⟨⟨nc, t⟩, s', lvl', h', s1, s2, s3, s4, s5, s6⟩ := search_upd ⟨hm.1, by omega⟩ g sz k2 k4 ok1 ex k3 hes
        refine ⟨some r.cursor, [], s', ?_, ⟨h', ⟨lvl', s3⟩, s4⟩, ?_⟩
        · simp only [pure_ok, bind_ok, s1]
          cases nc with
          | none =>
            simp only [insEnd] at s2
            obtain ⟨rc, e2, e3⟩ := bind_inv s2
            cases e3
            simp only [e2, bind_ok]
          | some x =>
            simp only [insEnd] at s2
            simp only [s2, bind_ok]
        · show SearchRel _ _ _ _ _ _ _ s'.lf.items.length (entries s')
          rw [s5, s6]
          exact .one e1
      | some a =>
        obtain ⟨⟨nc, t⟩, s', lvl', h', s1, s2, s3, s4, s5, s6⟩ := search_ins ⟨hm.1, by omega⟩ g sz k2 k4 ok1 (okn a rfl) ex k3 hes
        have hlf : (s.setLf r.cursor.leaf ⟨e1, p⟩).lf.items.length = s.lf.items.length := by simp
        refine ⟨some r.cursor, [s.lf.items.length], s', ?_, ⟨h', ⟨lvl', s3⟩, s4⟩, ?_⟩
        · have ha : allocLeafChild B (s.setLf r.cursor.leaf ⟨e1, p⟩) a p = (⟨.leaf s.lf.items.length, B.elemCache a⟩, addLf (s.setLf r.cursor.leaf ⟨e1, p⟩) ⟨a, p⟩) := by
            simp [allocLeafChild, addLf, Arena.insert]
          simp only [List.head?_cons, unwrap, bind_ok, Idx.raw, ha, pure_ok, s1]
          cases nc with
          | none =>
            simp only [insEnd] at s2
            obtain ⟨rc, e2, e3⟩ := bind_inv s2
            cases e3
            simp only [e2, bind_ok]
          | some x =>
            simp only [insEnd] at s2
            simp only [s2, bind_ok]
        · show SearchRel _ _ _ _ _ _ _ s'.lf.items.length (entries s')
          rw [s5, s6]
          exact .two e1 a
  · intro f e1 hf ok1 hc
    have hf' : f e ⟨⟨r.cursor.leaf, r.cursor.offset⟩, fnd⟩ = .ok (e1, none) := hf
    unfold updateLeafBySearch
    simp only [h1, bind_ok, Bool.false_eq_true, if_false, k1, getLf_ok k4, k5, hf', pure_ok]
    obtain ⟨g2, sh, hel⟩ := Good.same_cache g k4 ok1 hc
    refine ⟨_, rfl, ⟨⟨lvl, g2⟩, SzX.congr sh sz⟩, ?_⟩
    show (Seq.mk _ (entries _) : Seq E) = _
    rw [entries_upd (e := e) g.wf sh.order hel hes]
    simp [abs]

/-- Every valid tree of at most 10 levels, every query that finds position `r.cursor` in leaf `r.cursor.leaf` with element
`e`: the closure is called with `e`, the position the query returns and a flag which is set at least when the query
says found.  For every result `(e1, diff, n1)` of the closure with `diff` exact (`Exact`: applied to any combination
that contains the cache of `e` it gives the one with the caches of the results in its place): no panic, the result
is valid, and by `SearchRel` the leaf now holds `e1`, `n1` follows as a new leaf, or the leaf is gone if `e1` is removable.

The fill bound `m` is at most 5, not 6: the code computes `is_lack` of a node before it handles the lack of its child
(src/lib.rs:1180-1186), so a node with 6 children may be left with 5. -/
theorem C22_update_leaf_by_search {B : Trait E C D} {A : Law B} {m : Fill} {h : Nat} {s : Tree E C} {q : Query E C Q F} {arg : Q} {r : QueryResult}
    {e : E} {U V : List (Nat × E)} (hm : 1 ≤ m.lo ∧ m.lo + m.d ≤ 5) (hi : InvH A m h s) (h10 : h ≤ 10)
    (hq : query q s arg = .ok (some r)) (hes : (abs s).es = U ++ (r.cursor.leaf, e) :: V) :
    ∃ fnd, (r.found = true → fnd = true) ∧
      ∀ (f : E → QueryResult → M (E × Option (D × Option E × Option E))) (e1 : E) (d : D) (n1 : Option E),
      f e ⟨r.cursor, fnd⟩ = .ok (e1, some (d, n1, none)) → A.okE e1 → (∀ a, n1 = some a → A.okE a) →
      (B.canRemove e1 = true → n1 = none ∧ LawE A) →
      Exact A (B.elemCache e) d ((searchResults B e1 n1).map B.elemCache) →
      ∃ cur ids s', updateLeafBySearch B q s arg f = .ok (cur, ids, s') ∧ Inv A m s' ∧
        SearchRel (abs s).next r.cursor U V (searchResults B e1 n1) cur ids (abs s').next (abs s').es := by
  obtain ⟨fnd, k1, k2, -⟩ := C22_search hm.1 hi h10 hq hes
  exact ⟨fnd, k1, k2 hm.2⟩

/-- When the closure reports no change (`None`), only the element is replaced; the tree stays valid if its cache is the same. -/
theorem C22_unreported {B : Trait E C D} {A : Law B} {m : Fill} {h : Nat} {s : Tree E C} {q : Query E C Q F} {arg : Q} {r : QueryResult}
    {e : E} {U V : List (Nat × E)} (hm : 1 ≤ m.lo) (hi : InvH A m h s) (h10 : h ≤ 10)
    (hq : query q s arg = .ok (some r)) (hes : (abs s).es = U ++ (r.cursor.leaf, e) :: V) :
    ∃ fnd, (r.found = true → fnd = true) ∧
      ∀ (f : E → QueryResult → M (E × Option (D × Option E × Option E))) (e1 : E),
      f e ⟨r.cursor, fnd⟩ = .ok (e1, none) → A.okE e1 → B.elemCache e1 = B.elemCache e →
      ∃ s', updateLeafBySearch B q s arg f = .ok (some r.cursor, [], s') ∧ InvH A m h s' ∧
        abs s' = ⟨(abs s).next, U ++ (r.cursor.leaf, e1) :: V⟩ := by
  obtain ⟨fnd, k1, -, k3⟩ := C22_search hm hi h10 hq hes
  exact ⟨fnd, k1, k3⟩

/-- Two cases end in a panic: two new elements (`unimplemented!`), and a removable element together with a new one. -/
theorem C22_panics {B : Trait E C D} {A : Law B} {m : Fill} {h : Nat} {s : Tree E C} {q : Query E C Q F} {arg : Q} {r : QueryResult}
    {e : E} {U V : List (Nat × E)} (hm : 1 ≤ m.lo) (hi : InvH A m h s) (h10 : h ≤ 10)
    (hq : query q s arg = .ok (some r)) (hes : (abs s).es = U ++ (r.cursor.leaf, e) :: V) :
    ∃ fnd, (r.found = true → fnd = true) ∧
      ∀ (f : E → QueryResult → M (E × Option (D × Option E × Option E))) (e1 : E) (d : D) (n1 n2 : Option E),
      f e ⟨r.cursor, fnd⟩ = .ok (e1, some (d, n1, n2)) → (n2.isSome = true ∨ (B.canRemove e1 = true ∧ n1.isSome = true)) →
      updateLeafBySearch B q s arg f = .error .panic := by
  obtain ⟨⟨lvl, g⟩, sz⟩ := hi
  have ne : NE s := InvH.ne (A := A) (h := h) ⟨⟨lvl, g⟩, sz⟩ hm
  obtain ⟨fd, hq⟩ := query_with hq
  obtain ⟨h1, p, i, arr, cp, rest, fdm, fnd, k1, k2, k3, k4, k5, k6⟩ := search_start g ne h10 hq hes
  refine ⟨fnd, k6, ?_⟩
  intro f e1 d n1 n2 hf hc
  have hf' : f e ⟨⟨r.cursor.leaf, r.cursor.offset⟩, fnd⟩ = .ok (e1, some (d, n1, n2)) := hf
  unfold updateLeafBySearch
  simp only [h1, bind_ok, Bool.false_eq_true, if_false, k1, getLf_ok k4, k5, hf']
  cases n2 with
  | some b => rfl
  | none =>
    obtain ⟨hr, hn⟩ := hc.resolve_left (by simp)
    cases n1 with
    | none => cases hn
    | some a => simp only [hr, if_true]; rfl

/-- On trees of 11 or more levels every call panics before the closure is run. -/
theorem C22_too_high {B : Trait E C D} {A : Law B} {m : Fill} {h : Nat} {s : Tree E C} {q : Query E C Q F} {arg : Q} {r : QueryResult}
    (hi : InvH A m h s) (hh : 11 ≤ h) (hq : query q s arg = .ok (some r)) (f : E → QueryResult → M (E × Option (D × Option E × Option E))) :
    updateLeafBySearch B q s arg f = .error .panic := by
  obtain ⟨lvl, g⟩ := hi.ex
  exact updateLeafBySearch_full g.wf hh hq f

/-- an empty tree panics (`expect`/assert on an empty tree) -/
theorem C22_empty {B : Trait E C D} {A : Law B} {m : Fill} {h : Nat} {s : Tree E C} (q : Query E C Q F) (arg : Q) (hm : 1 ≤ m.lo) (hi : InvH A m h s)
    (he : (abs s).es = []) (f : E → QueryResult → M (E × Option (D × Option E × Option E))) :
    updateLeafBySearch B q s arg f = .error .panic := by
  have ne := hi.ne hm
  obtain ⟨⟨lvl, g⟩, sz⟩ := hi
  have ho : order s = [] := (abs_nil (A := A) (m := m) (h := h) ⟨⟨lvl, g⟩, sz⟩).mp he
  unfold updateLeafBySearch
  simp only [isEmpty_spec g.wf ne, ho, bind_ok, List.isEmpty_nil, if_true]

/-- the contents -/
theorem C22_content {cont : E → List X} {next next' : Nat} {cur : Cursor} {U V es' : List (Nat × E)} {res : List E} {c : Option Cursor} {ids : List Nat}
    (h : SearchRel next cur U V res c ids next' es') : content cont es' = content cont U ++ res.flatMap cont ++ content cont V := by
  cases h <;> simp [content]

/-- for a rope the exact diff is the difference of lengths -/
theorem rope_exact (cap : Nat) (c : Int) (new : List Int) : Exact (ropeLaw cap) c (new.sum - c) new := by
  intro l r _
  simp only [ropeLaw, ropeTrait, int_sum_append, List.sum_cons]
  congr 1
  omega

/-- a query in the sample: position 34 is at offset 1 of leaf 11 -/
theorem ropeSample_query : ∃ h, h ≤ 10 ∧ InvH (ropeLaw 4) 5 h ropeSample ∧ query ropeQuery ropeSample 34 = .ok (some ⟨⟨11, 1⟩, true⟩) := by
  obtain ⟨h, h9, hi⟩ := ropeSample_spec.1.low (by decide) (by rw [ropeSample_spec.2]; decide)
  refine ⟨h, by omega, hi, ?_⟩
  obtain ⟨U, l, e, V, o, h1, h2, h3, h4, -, -⟩ := C09_query_len (ropeLenLaw 4) (by decide) ropeSample_spec.1 (by rw [ropeSample_spec.2]; simp) 34
  rw [show (ropeQuery : Query GapBuf Int Nat LenFinder) = lenQuery ropeTrait ropeLen from rfl, h2]
  have hn := congrArg List.length h1
  rw [ropeSample_spec.2] at h1 h4
  simp only at h1
  have hs : unitLen ropeTrait ((List.range 30).map fun i => (i, (⟨[UInt8.ofNat i, 1, 2, 0], 3, 1⟩ : GapBuf))) = 90 := by decide
  rw [ropeSample_spec.2, hs]
  rw [hs] at h4
  have ho := h4 (by decide)
  have hU : U = ((List.range 30).map fun i => (i, (⟨[UInt8.ofNat i, 1, 2, 0], 3, 1⟩ : GapBuf))).take U.length := by rw [h1]; simp
  have hlt : U.length < 30 := by
    have := congrArg List.length h1
    simp at this
    omega
  have hle : l = U.length ∧ e = ⟨[UInt8.ofNat U.length, 1, 2, 0], 3, 1⟩ := by
    have h5 : (U ++ (l, e) :: V)[U.length]? = some (l, e) := by simp
    rw [← h1, List.getElem?_map, List.getElem?_range hlt] at h5
    cases h5
    exact ⟨rfl, rfl⟩
  have hlen : ∀ n, n < 30 → unitLen ropeTrait (((List.range 30).map fun i => (i, (⟨[UInt8.ofNat i, 1, 2, 0], 3, 1⟩ : GapBuf))).take n) = 3 * n := by decide
  rw [hU, hlen _ hlt] at h3
  obtain ⟨rfl, rfl⟩ := hle
  have ho3 : o < 3 := ho
  have : U.length = 11 ∧ o = 1 := by omega
  rw [this.1, this.2]
  rfl

/-- the found chunk is replaced by two -/
example : ∃ cur ids s', updateLeafBySearch ropeTrait ropeQuery ropeSample 34
      (fun _ _ => .ok (⟨[11, 0, 0, 0], 1, 3⟩, some (-1, some ⟨[9, 0, 0, 0], 1, 3⟩, none))) = .ok (cur, ids, s') ∧ Inv (ropeLaw 4) 5 s' ∧
    cur = some ⟨11, 1⟩ ∧ ids = [30] ∧ (abs s').es.length = 31 := by
  obtain ⟨h, h10, hi, hq⟩ := ropeSample_query
  obtain ⟨fnd, -, key⟩ := C22_update_leaf_by_search (by decide) hi h10 hq (U := (List.range 11).map fun i => (i, ⟨[UInt8.ofNat i, 1, 2, 0], 3, 1⟩))
    (V := (List.range 18).map fun i => (i + 12, ⟨[UInt8.ofNat (i + 12), 1, 2, 0], 3, 1⟩)) (e := ⟨[11, 1, 2, 0], 3, 1⟩) (by rw [ropeSample_spec.2]; rfl)
  have hn : (abs ropeSample).next = 30 := by rw [ropeSample_spec.2]
  obtain ⟨cur, ids, s', k1, k2, k3⟩ := key (fun _ _ => .ok (⟨[11, 0, 0, 0], 1, 3⟩, some (-1, some ⟨[9, 0, 0, 0], 1, 3⟩, none))) ⟨[11, 0, 0, 0], 1, 3⟩ (-1) (some ⟨[9, 0, 0, 0], 1, 3⟩) rfl ⟨by unfold GapBuf.WF; decide, rfl⟩
    (by intro a h; cases h; exact ⟨by unfold GapBuf.WF; decide, rfl⟩) (by intro h; cases h) (by exact rope_exact 4 3 [1, 1])
  refine ⟨cur, ids, s', k1, k2, ?_⟩
  rw [hn] at k3
  generalize (abs s').es = es at *
  generalize (abs s').next = nx at *
  have hr : searchResults ropeTrait ⟨[11, 0, 0, 0], 1, 3⟩ (some ⟨[9, 0, 0, 0], 1, 3⟩) = [⟨[11, 0, 0, 0], 1, 3⟩, ⟨[9, 0, 0, 0], 1, 3⟩] := rfl
  rw [hr] at k3
  cases k3
  simp

/-- and by nothing -/
example : ∃ cur ids s', updateLeafBySearch ropeTrait ropeQuery ropeSample 34
      (fun _ _ => .ok (⟨[0, 0, 0, 0], 0, 4⟩, some (-3, none, none))) = .ok (cur, ids, s') ∧ Inv (ropeLaw 4) 5 s' ∧
    cur = none ∧ (abs s').es.length = 29 := by
  obtain ⟨h, h10, hi, hq⟩ := ropeSample_query
  obtain ⟨fnd, -, key⟩ := C22_update_leaf_by_search (by decide) hi h10 hq (U := (List.range 11).map fun i => (i, ⟨[UInt8.ofNat i, 1, 2, 0], 3, 1⟩))
    (V := (List.range 18).map fun i => (i + 12, ⟨[UInt8.ofNat (i + 12), 1, 2, 0], 3, 1⟩)) (e := ⟨[11, 1, 2, 0], 3, 1⟩) (by rw [ropeSample_spec.2]; rfl)
  obtain ⟨cur, ids, s', k1, k2, k3⟩ := key (fun _ _ => .ok (⟨[0, 0, 0, 0], 0, 4⟩, some (-3, none, none))) ⟨[0, 0, 0, 0], 0, 4⟩ (-3) none rfl
    ⟨by unfold GapBuf.WF; decide, rfl⟩ (by intro a h; cases h) (fun _ => ⟨rfl, ropeLawE 4⟩) (by exact rope_exact 4 3 [])
  refine ⟨cur, ids, s', k1, k2, ?_⟩
  generalize (abs s').es = es at *
  generalize (abs s').next = nx at *
  have hr : searchResults ropeTrait ⟨[0, 0, 0, 0], 0, 4⟩ none = [] := rfl
  rw [hr] at k3
  cases k3
  simp

/-- 2 * 6 ^ 10 or more chunks that do not merge, pushed one by one: no byte can be changed by search any more -/
example (n : Nat) (hn : 120932352 ≤ n) (f : GapBuf → QueryResult → M (GapBuf × Option (Int × Option GapBuf × Option GapBuf))) :
    ∃ s, pushList ropeTrait (newTree ropeTrait) (List.replicate n (⟨[1, 2, 3, 4], 4, 0⟩ : GapBuf)) = .ok s ∧
      updateLeafBySearch ropeTrait ropeQuery s 5 f = .error .panic := by
  have hok : ∀ e ∈ List.replicate n (⟨[1, 2, 3, 4], 4, 0⟩ : GapBuf), (ropeLaw 4).okE e := by
    intro e he
    rw [(List.mem_replicate.mp he).2]
    exact ⟨by simp [GapBuf.WF], rfl⟩
  obtain ⟨s, h1, ⟨h, hi⟩, pk⟩ := pushList_packed (A := ropeLaw 4) (m := 6) (by decide) (by decide) _ (newTree ropeTrait) ⟨1, new_inv _ 6⟩ (new_packed _) hok
  obtain ⟨s', k1, -, k3⟩ := pushList_spec (A := ropeLaw 4) (m := 6) (by decide) (by decide) (· = (⟨[1, 2, 3, 4], 4, 0⟩ : GapBuf))
    (fun x y hx hy => by rw [hx, hy]; rfl) (List.replicate n (⟨[1, 2, 3, 4], 4, 0⟩ : GapBuf)) (newTree ropeTrait) ⟨1, new_inv _ 6⟩
    (fun e he => ⟨(List.mem_replicate.mp he).2, hok e he⟩) (by rw [new_entries]; simp)
  rw [h1] at k1
  cases k1
  have hlen : (abs s).es.length = n := by rw [k3, new_entries]; simp
  obtain ⟨lvl, g⟩ := hi.ex
  have h11 : 11 ≤ h := by
    apply Nat.le_of_not_lt
    intro h10
    have hb := packed_length (m := 6) (by decide) g.wf hi.sz pk
    have hpow : 6 ^ h ≤ 6 ^ 10 := Nat.pow_le_pow_right (by omega) (by omega)
    have : (entries s).length = n := hlen
    have : 6 ^ 10 = 60466176 := by decide
    omega
  obtain ⟨U, l, e, V, o, -, h2, -⟩ := C09_query_len (ropeLenLaw 4) (by decide) ⟨h, hi⟩ (by intro h0; rw [h0] at hlen; simp at hlen; omega) 5
  exact ⟨s, h1, C22_too_high hi h11 h2 f⟩

private theorem ropeSample_q34 : query ropeQuery ropeSample 34 = .ok (some ⟨⟨11, 1⟩, true⟩) := ropeSample_query.choose_spec.2.2

example := C22_search (by decide) ropeSample_two (by decide) ropeSample_q34 (ropeSample_at (k := 11) (by decide))

example := C22_unreported (by decide) ropeSample_two (by decide) ropeSample_q34 (ropeSample_at (k := 11) (by decide))

example := C22_panics (by decide) ropeSample_two (by decide) ropeSample_q34 (ropeSample_at (k := 11) (by decide))

example := C22_empty ropeQuery 3 (by decide) (new_inv (ropeLaw 4) 5) (by rw [new_entries]) (fun e _ => .ok (e, none))

example := C22_content (cont := GapBuf.toVec) (SearchRel.two (next := 30) (cur := ⟨3, 1⟩) (U := chunks 0 3) (V := chunks 4 2) (chunk 7) (chunk 8))

end GB

import Verif.Proof.Inverted
import Verif.Props.C21
import Verif.Props.C47

/-!
# C61: a range that ends before it starts is empty

A caller may expect that a range whose end lies before its start is empty (as Rust's own ranges are) or is rejected.

False: `iter_range`, `update` and `drain` look for the leaf at the end of the range, which lies behind them, and run to the end of the
tree.  `C61_iter_range`, `C61_update` and `C61_drain` say so for all trees, and `C61_iter_range_false`, `C61_update_false` and
`C61_drain_false` are witnesses.

What holds: inside one element `update` and `drain` panic (`C61_same_leaf_partial`); `Rope::delete_range` and
`GapBuffer::delete` do nothing (`C61_text_partial`).
-/

namespace GB
variable {E C D X σ : Type}
open Tree

/-- `iter_range(a..b)` with `b` in an earlier leaf than `a`: everything from the leaf of `a` to the end of the tree. -/
theorem C61_iter_range {B : Trait E C D} {A : Law B} {m : Fill} {h : Nat} {s : Tree E C} (hm : 1 ≤ m.lo) (hi : InvH A m h s) (hh : h ≤ 9)
    {a b : Cursor} {ea eb : E} {U V : List (Nat × E)} (ha : (abs s).es = U ++ (a.leaf, ea) :: V) (hb : (b.leaf, eb) ∈ U) :
    ∃ r, iterRange B s (.included a) (.excluded b) = .ok r ∧ r.map (fun x => (x.cursor.leaf, x.elem)) = (a.leaf, ea) :: V := by
  obtain ⟨lvl, g⟩ := hi.ex
  refine ⟨_, inv_iterRange g.wf (hi.ne hm) hh ha hb, ?_⟩
  rw [List.map_map]
  exact List.map_id' _

/-- `update(a..b, f)` with `b` before `a`: the closure is run on everything from `a` to the end of the tree. -/
theorem C61_update {B : Trait E C D} {A : Law B} {R : C → D → C → Prop} (L : DiffLaw A R) {cont : E → List X} (K : ContentLaw B A.okE cont)
    {m : Fill} {h : Nat} {s : Tree E C} (hm : 1 ≤ m.lo ∧ m.lo + m.d ≤ 5) (hE : 2 ≤ m.lo ∨ LawE A) (hi : InvH A m h s)
    {ho : HashOrd E} (hho : ∀ l, (ho.idx l).Perm l) {f : σ → E → M (σ × E × Option D)} (hf : ClosureOK A R f) (st : σ)
    {a b : Cursor} {Ua Va Ub Vb : List (Nat × E)} {ea eb : E} {i j : Nat}
    (ha : (abs s).es = Ua ++ (a.leaf, ea) :: Va) (hoa : a.offset ≤ B.rleLen ea) (hia : unitLen B Ua + a.offset = i)
    (hb : (abs s).es = Ub ++ (b.leaf, eb) :: Vb) (hob : b.offset ≤ B.rleLen eb) (hjb : unitLen B Ub + b.offset = j) (hlt : j < i)
    (hab : a.leaf ≠ b.leaf ∨ b.offset = 0) (hh : h ≤ 8 ∨ update B ho f st s a b ≠ .error .panic) :
    ∃ Y st' Y' s' h', update B ho f st s a b = .ok (st', List.range' (abs s).next ((abs s').next - (abs s).next), s') ∧ InvH A m h' s' ∧
      content cont Y = (content cont (abs s).es).drop i ∧ runOn f st Y = .ok (st', Y') ∧
      content cont (abs s').es = (content cont (abs s).es).take i ++ content cont (Y'.filter fun x => !B.canRemove x.2) := by
  obtain ⟨⟨lvl, g⟩, sz⟩ := hi
  have nd := entries_nodup g.wf
  have hpa : posOf B (abs s) a = some i := by
    rw [posOf, show locate a.leaf (abs s).es = _ from locate_split nd ha, ← hia]; rfl
  obtain ⟨ua, va, o1, rfl, -, hea⟩ := entries_split g.wf ha
  obtain ⟨ub, vb, o2, rfl, -, heb⟩ := entries_split g.wf hb
  obtain ⟨st', s', lvl', h', u1, -, u3, u4, -, L', R', X, n, Y, Y', k1, k2, k3, k4⟩ := inv_update hm.1 hm.2 hE L hho hf st g sz
    o1 hea hoa o2 heb hob (by omega) hab hh
  obtain ⟨c1, c2⟩ := inv_content K g hpa k1 k2
  exact ⟨Y, st', Y', s', h', u1, ⟨⟨lvl', u3⟩, u4⟩, c2, k3, by rw [← c1, ← content_append]; exact congrArg _ k4⟩

/-- `drain(a..b)` with `b` before `a`: the iterator yields everything from `a` to the end of the tree.  Dropping it does not succeed,
unless the leaf it starts at and the leaf it should have stopped at are children of one node. -/
theorem C61_drain {B : Trait E C D} {A : Law B} {cont : E → List X} (K : ContentLaw B A.okE cont)
    {m : Fill} {h : Nat} {s : Tree E C} (hm : 1 ≤ m.lo ∧ m.lo + m.d ≤ 5) (hi : InvH A m h s) (hh : h ≤ 8)
    {a b : Cursor} {Ua Va Ub Vb : List (Nat × E)} {ea eb : E} {i j : Nat}
    (ha : (abs s).es = Ua ++ (a.leaf, ea) :: Va) (hoa : a.offset ≤ B.rleLen ea) (hia : unitLen B Ua + a.offset = i)
    (hb : (abs s).es = Ub ++ (b.leaf, eb) :: Vb) (hob : b.offset ≤ B.rleLen eb) (hjb : unitLen B Ub + b.offset = j) (hlt : j < i)
    (hab : a.leaf ≠ b.leaf ∨ b.offset = 0) (fa fb : Bool) :
    ∃ d Y, drainNew B s (some ⟨a, fa⟩) (some ⟨b, fb⟩) = .ok d ∧ content cont Y = (content cont (abs s).es).drop i ∧
      ∀ k, ∃ d', drainTake k d = .ok ((Y.take k).map Prod.snd, d') ∧
        ((∀ r, drainDrop B d' ≠ .ok r) ∨ ∃ y e, Y.head?.map Prod.fst = some y ∧ d.endCursor = some ⟨e, 0⟩ ∧ lpar d.tree y = lpar d.tree e) := by
  obtain ⟨⟨lvl, g⟩, sz⟩ := hi
  have nd := entries_nodup g.wf
  have hpa : posOf B (abs s) a = some i := by
    rw [posOf, show locate a.leaf (abs s).es = _ from locate_split nd ha, ← hia]; rfl
  obtain ⟨ua, va, o1, rfl, -, hea⟩ := entries_split g.wf ha
  obtain ⟨ub, vb, o2, rfl, -, heb⟩ := entries_split g.wf hb
  obtain ⟨d, L', R', n, X, Y, n', d1, k1, k2, d2⟩ := inv_drain hm.1 hm.2 g sz hh o1 hea hoa o2 heb hob (by omega) hab fa fb
  exact ⟨d, Y, d1, (inv_content K g hpa k1 k2).2, d2⟩

/-- Inside one element an inverted range panics: the first cut leaves too little for the second. -/
theorem C61_same_leaf_partial {B : Trait E C D} {A : Law B} {m : Fill} {h : Nat} {s : Tree E C} (hm : 1 ≤ m.lo ∧ m.lo + m.d ≤ 5) (hi : InvH A m h s)
    (hsl : SplitLen B A.okE) {a b : Cursor} {U V : List (Nat × E)} {e : E} (hab : a.leaf = b.leaf) (ha : (abs s).es = U ++ (a.leaf, e) :: V)
    (hoa : a.offset ≤ B.rleLen e) (hlt : b.offset < a.offset) (hb0 : 0 < b.offset) :
    (∀ (ho : HashOrd E) (f : σ → E → M (σ × E × Option D)) (st : σ), update B ho f st s a b = .error .panic) ∧
    (∀ (fa fb : Bool) (k : Nat), drain B s ⟨a, fa⟩ ⟨b, fb⟩ k = .error .panic) := by
  obtain ⟨⟨lvl, g⟩, sz⟩ := hi
  obtain ⟨u, v, -, -, -, he⟩ := entries_split g.wf ha
  obtain ⟨ei, s1, k1, k2⟩ := inv_same hm.1 hm.2 g sz hsl hab he hlt hoa hb0
  constructor
  · intro ho f st
    simp only [update, k1, bind_ok, k2]
    rfl
  · intro fa fb k
    simp only [drain, drainNew, k1, bind_ok, k2]
    rfl

/-- `Rope::delete_range` and `GapBuffer::delete` of an inverted range do nothing, whatever the state. -/
theorem C61_text_partial {start stop : Nat} (h : stop ≤ start) : (∀ r : Rope, r.deleteRange start stop = .ok r) ∧ ∀ g : GapBuf, g.delete start stop = .ok g := by
  constructor
  · intro r
    unfold Rope.deleteRange
    split
    · rfl
    · simp only
      rw [if_pos (by omega)]
  · intro g
    unfold GapBuf.delete
    simp only
    rw [if_pos (by omega)]

/-- The range map: an inverted operation that returns has been applied to everything from its start to the end of the map. -/
theorem C61_range_map {m : Fill} {h : Nat} {s : RangeMap} (hm : 1 ≤ m.lo ∧ m.lo + m.d ≤ 5) (hi : InvH rangeLaw m h s) {ho : HashOrd RElem} (hho : ∀ l, (ho.idx l).Perm l)
    {start stop : Nat} (hlt : stop < start) (hlen : start ≤ s.cells.length) {s' : RangeMap} :
    (∀ v, RangeMap.insert ho s start stop v = .ok s' → s'.cells = s.cells.take start ++ (s.cells.drop start).map fun _ => some v) ∧
    (∀ d, RangeMap.plus ho s start stop d = .ok s' → s'.cells = s.cells.take start ++ (s.cells.drop start).map (Option.map (· + d))) := by
  have hi' : Inv rangeLaw m s := ⟨h, hi⟩
  have hul : s.cells.length = unitLen rangeTrait (abs s).es := content_length rangeContent hi'.okE
  have hne : (abs s).es ≠ [] := by
    intro hc
    rw [RangeMap.cells, hc] at hlen
    simp [content] at hlen
    omega
  have hres : RangeMap.reserve s stop = .ok s := by
    rw [RangeMap.reserve, RangeMap.len_spec hm.1 hi', if_neg (by omega)]
  obtain ⟨U, l, e, V, o, a1, a2, a3, a4, -, a6⟩ := C09_query_len rangeLenLaw hm.1 hi' hne start
  obtain ⟨U', l', e', V', o', b1, b2, b3, b4, -, -⟩ := C09_query_len rangeLenLaw hm.1 hi' hne stop
  have hoa : o ≤ rangeTrait.rleLen e := by
    rcases Nat.lt_or_ge start (unitLen rangeTrait (abs s).es) with h | h
    · exact Nat.le_of_lt (a4 h)
    · exact Nat.le_of_eq (a6 (by omega))
  have hob : o' ≤ rangeTrait.rleLen e' := Nat.le_of_lt (b4 (by omega))
  have hrng := C44_range hm.1 hi' hne rangeQuery a2 b2
  have key : ∀ (f : Option Int → Option Int) r, update rangeTrait ho (fun (_ : Unit) (e : RElem) => (.ok ((), ⟨f e.value, e.len⟩, none) : M (Unit × RElem × Option Int))) () s ⟨l, o⟩ ⟨l', o'⟩ = .ok r →
      RangeMap.cells r.2.2 = s.cells.take start ++ (s.cells.drop start).map f := by
    intro f r hr
    have hab : l ≠ l' ∨ o' = 0 := by
      by_cases hl : l = l'
      · subst hl
        by_cases h0 : o' = 0
        · exact .inr h0
        · exfalso
          have := locate_split hi'.nodup a1
          rw [locate_split hi'.nodup b1] at this
          cases this
          have := (C61_same_leaf_partial (σ := Unit) hm hi rangeContent.splitLen (a := ⟨l, o⟩) (b := ⟨l, o'⟩) rfl a1 hoa (by simp only; omega) (by simp only; omega)).1 ho
            (fun _ e => .ok ((), ⟨f e.value, e.len⟩, none)) ()
          rw [hr] at this
          cases this
      · exact .inl hl
    obtain ⟨Y, st', Y', s2, h', u1, -, c1, r1, c2⟩ := C61_update rangeDiffs rangeContent hm (Or.inr rangeLawE) hi hho (RangeMap.closure_ok (f := f)) ()
      (a := ⟨l, o⟩) (b := ⟨l', o'⟩) a1 hoa a3 b1 hob b3 hlt hab (.inr (by rw [hr]; simp))
    rw [hr] at u1
    cases u1
    rw [RangeMap.runOn_map] at r1
    cases r1
    show content RElem.cells (abs s2).es = _
    rw [c2]
    have hfil : content RElem.cells ((Y.map fun x => (x.1, (⟨f x.2.value, x.2.len⟩ : RElem))).filter (fun x => !rangeTrait.canRemove x.2)) =
        content RElem.cells (Y.map fun x => (x.1, (⟨f x.2.value, x.2.len⟩ : RElem))) := by
      generalize Y.map (fun x => (x.1, (⟨f x.2.value, x.2.len⟩ : RElem))) = Z
      induction Z with
      | nil => rfl
      | cons z Z ih =>
        by_cases hz : z.2.len = 0
        · rw [List.filter_cons_of_neg (by simp [rangeTrait, hz]), ih, content_cons]
          simp [RElem.cells, hz]
        · rw [List.filter_cons_of_pos (by simp [rangeTrait, hz]), content_cons, content_cons, ih]
    rw [hfil, RangeMap.content_map, c1]
    rfl
  constructor
  · intro v hv
    simp only [RangeMap.insert, hres, bind_ok, hrng] at hv
    obtain ⟨r, h1, h2⟩ := bind_inv hv
    have := key (fun _ => some v) r h1
    cases h2
    exact this
  · intro d hv
    simp only [RangeMap.plus, hres, bind_ok, hrng] at hv
    obtain ⟨r, h1, h2⟩ := bind_inv hv
    have := key (Option.map (· + d)) r h1
    cases h2
    exact this

/-! ## Witnesses: the sample rope of 30 chunks `[i, 1, 2]` -/

theorem ropeSample_split (i : Nat) (hi : i < 30) : (abs ropeSample).es =
    ((List.range i).map fun k => (k, (⟨[UInt8.ofNat k, 1, 2, 0], 3, 1⟩ : GapBuf))) ++ (i, ⟨[UInt8.ofNat i, 1, 2, 0], 3, 1⟩) ::
      ((List.range (29 - i)).map fun k => (i + 1 + k, (⟨[UInt8.ofNat (i + 1 + k), 1, 2, 0], 3, 1⟩ : GapBuf))) := by
  rw [ropeSample_spec.2]
  revert i
  decide +kernel

/-- `iter_range` from chunk 27 to the middle of chunk 3 yields chunks 27, 28 and 29. -/
theorem C61_iter_range_false : ∃ r, iterRange ropeTrait ropeSample (.included ⟨27, 1⟩) (.excluded ⟨3, 1⟩) = .ok r ∧ r.map (fun x => x.cursor.leaf) = [27, 28, 29] := by
  obtain ⟨h, h7, hi⟩ := C18_height ropeSample_spec.1 (by decide) (by rw [ropeSample_spec.2]; decide)
  obtain ⟨r, h1, h2⟩ := C61_iter_range (by decide) hi (by omega) (a := ⟨27, 1⟩) (b := ⟨3, 1⟩) (eb := ⟨[3, 1, 2, 0], 3, 1⟩) (ropeSample_split 27 (by decide)) (by decide)
  refine ⟨r, h1, ?_⟩
  have := congrArg (List.map Prod.fst) h2
  rw [List.map_map] at this
  exact this

theorem wipe_all : ∀ {Y Y' : List (Nat × GapBuf)} {n n' : Nat}, runOn wipe n Y = .ok (n', Y') → Y'.filter (fun x => !ropeTrait.canRemove x.2) = [] ∧ n' = n + Y.length := by
  intro Y
  induction Y with
  | nil => intro Y' n n' h; cases h; exact ⟨rfl, rfl⟩
  | cons y Y ih =>
    intro Y' n n' h
    obtain ⟨r, h1, h⟩ := bind_inv h
    cases h1
    obtain ⟨⟨n2, Y2⟩, h2, h⟩ := bind_inv h
    cases h
    obtain ⟨k1, k2⟩ := ih h2
    refine ⟨?_, by simp only [List.length_cons]; omega⟩
    rw [List.filter_cons_of_neg, k1]
    simp [ropeTrait, GapBuf.canRemove, GapBuf.new, GapBuf.len]

/-- `update` with a closure that empties every element, from the middle of chunk 27 to the middle of chunk 3: the last eight of 90 bytes are gone. -/
theorem C61_update_false {ho : HashOrd GapBuf} (hho : ∀ l, (ho.idx l).Perm l) : ∃ n sp s', update ropeTrait ho wipe 0 ropeSample ⟨27, 1⟩ ⟨3, 1⟩ = .ok (n, sp, s') ∧
    content GapBuf.toVec (abs s').es = (content GapBuf.toVec (abs ropeSample).es).take 82 ∧ (content GapBuf.toVec (abs ropeSample).es).length = 90 := by
  obtain ⟨h, h7, hi⟩ := C18_height ropeSample_spec.1 (by decide) (by rw [ropeSample_spec.2]; decide)
  obtain ⟨Y, st', Y', s', h', d1, -, -, d3, d4⟩ := C61_update (C21_rope_diffs 4) (ropeContent 4) (by decide) (.inl (by decide)) hi hho (wipe_ok 4) 0
    (a := ⟨27, 1⟩) (b := ⟨3, 1⟩) (i := 82) (j := 10) (ropeSample_split 27 (by decide)) (by decide) (by decide) (ropeSample_split 3 (by decide)) (by decide) (by decide) (by decide)
    (.inl (by decide)) (.inl h7)
  refine ⟨_, _, s', d1, ?_, by rw [ropeSample_spec.2]; decide⟩
  rw [d4, (wipe_all d3).1]
  exact List.append_nil _

/-- `drain` from chunk 27 to the middle of chunk 3 yields the chunks 27, 28 and 29 (the first without its first byte). -/
example : ∃ d Y, drainNew ropeTrait ropeSample (some ⟨⟨27, 1⟩, true⟩) (some ⟨⟨3, 1⟩, true⟩) = .ok d ∧
    content GapBuf.toVec Y = (content GapBuf.toVec (abs ropeSample).es).drop 82 ∧ ∀ k, ∃ d', drainTake k d = .ok ((Y.take k).map Prod.snd, d') := by
  obtain ⟨h, h7, hi⟩ := C18_height ropeSample_spec.1 (by decide) (by rw [ropeSample_spec.2]; decide)
  obtain ⟨d, Y, d1, d2, d3⟩ := C61_drain (ropeContent 4) (by decide) hi h7
    (a := ⟨27, 1⟩) (b := ⟨3, 1⟩) (i := 82) (j := 10) (ropeSample_split 27 (by decide)) (by decide) (by decide) (ropeSample_split 3 (by decide)) (by decide) (by decide) (by decide)
    (.inl (by decide)) true true
  refine ⟨d, Y, d1, d2, fun k => ?_⟩
  obtain ⟨d', e1, -⟩ := d3 k
  exact ⟨d', e1⟩

/-- Draining from the start of chunk 29 to the start of chunk 28 returns, and removes chunk 29. -/
theorem C61_drain_false : ∃ rest s', drain ropeTrait ropeSample ⟨⟨29, 0⟩, true⟩ ⟨⟨28, 0⟩, true⟩ 0 = .ok ([], rest, s') ∧ rest.map GapBuf.toVec = [[29, 1, 2]] ∧
    s'.rootCache = 87 := by
  have h : (match drain ropeTrait ropeSample ⟨⟨29, 0⟩, true⟩ ⟨⟨28, 0⟩, true⟩ 0 with
    | .ok (es, rest, s') => es.isEmpty && decide (rest.map GapBuf.toVec = [[29, 1, 2]] ∧ s'.rootCache = 87)
    | .error _ => false) = true := by decide +kernel
  revert h
  cases hd : drain ropeTrait ropeSample ⟨⟨29, 0⟩, true⟩ ⟨⟨28, 0⟩, true⟩ 0 with
  | error e => intro h; cases h
  | ok r =>
    obtain ⟨es, rest, s'⟩ := r
    intro h
    simp only [Bool.and_eq_true, decide_eq_true_eq, List.isEmpty_iff] at h
    obtain ⟨rfl, h1, h2⟩ := h
    exact ⟨rest, s', rfl, h1, h2⟩

/-- The map with `5..10 ↦ 1` (20 cells): inserting 7 at the inverted range `8..3` sets the twelve cells from 8 to the end. -/
theorem C61_range_map_false : ∃ s s' : RangeMap, RangeMap.insert ⟨id, id, id⟩ RangeMap.new 5 10 1 = .ok s ∧ RangeMap.insert ⟨id, id, id⟩ s 8 3 7 = .ok s' ∧
    s.cells.length = 20 ∧ s'.cells = s.cells.take 8 ++ List.replicate 12 (some 7) := by
  obtain ⟨s, h1, ⟨h, hi⟩, -⟩ := C47_insert (s := RangeMap.new) ⟨1, new_inv rangeLaw 5⟩ (ho := ⟨id, id, id⟩)
    (fun l => List.Perm.refl _) (start := 5) (stop := 10) (by decide) (.inl (by decide)) 1 (.inl (by rw [RangeMap.new, new_entries]; decide))
  have hc : (match RangeMap.insert ⟨id, id, id⟩ RangeMap.new 5 10 1 with
    | .ok s => decide (RangeMap.len s = 20)
    | .error _ => false) = true := by decide +kernel
  rw [h1, decide_eq_true_eq, RangeMap.len_spec (by decide) ⟨h, hi⟩] at hc
  have hx : (match (RangeMap.insert ⟨id, id, id⟩ RangeMap.new 5 10 1 >>= fun s => RangeMap.insert ⟨id, id, id⟩ s 8 3 7) with
    | .ok _ => true
    | .error _ => false) = true := by decide +kernel
  rw [h1, bind_ok] at hx
  cases hd : RangeMap.insert ⟨id, id, id⟩ s 8 3 7 with
  | error e => rw [hd] at hx; cases hx
  | ok s' =>
    refine ⟨s, s', h1, hd, hc, ?_⟩
    rw [(C61_range_map (by decide) hi (fun l => List.Perm.refl _) (by decide) (by omega)).1 7 hd, List.map_const', List.length_drop, hc]

/-- Inside chunk 3. -/
example : drain ropeTrait ropeSample ⟨⟨3, 2⟩, true⟩ ⟨⟨3, 1⟩, true⟩ 0 = .error .panic := by
  obtain ⟨h, h7, hi⟩ := C18_height ropeSample_spec.1 (by decide) (by rw [ropeSample_spec.2]; decide)
  exact (C61_same_leaf_partial (σ := Nat) (by decide) hi (ropeContent 4).splitLen (a := ⟨3, 2⟩) (b := ⟨3, 1⟩) rfl (ropeSample_split 3 (by decide)) (by decide) (by decide)
    (by decide)).2 _ _ _

example := C61_text_partial (start := 7) (stop := 3) (by decide)

/-- the backward range from chunk 27 to chunk 3 is the range to the end -/
example : ∃ r, iterRange ropeTrait ropeSample (.included ⟨27, 1⟩) (.excluded ⟨3, 1⟩) = .ok r ∧ r.length = 3 := by
  obtain ⟨r, h1, h2⟩ := C61_iter_range (a := ⟨27, 1⟩) (b := ⟨3, 1⟩) (eb := chunk 3) (by decide) ropeSample_two (by decide) (ropeSample_at (k := 27) (by decide)) (by decide)
  refine ⟨r, h1, ?_⟩
  have := congrArg List.length h2
  rw [List.length_map] at this
  exact this

example := C61_update (C21_rope_diffs 4) (ropeContent 4) (by decide) (.inl (by decide)) ropeSample_two (ho := ⟨List.reverse, id, id⟩) (fun l => List.reverse_perm l)
  (wipe_ok 4) 0 (a := ⟨27, 1⟩) (b := ⟨3, 1⟩) (ropeSample_at (k := 27) (by decide)) (by decide) rfl (ropeSample_at (k := 3) (by decide)) (by decide) rfl (by decide)
  (.inl (by decide)) (.inl (by decide))

end GB

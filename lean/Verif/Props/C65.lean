import Verif.Proof.Inverted
import Verif.Props.C09
import Verif.Props.C18
import Verif.Props.C48
import Verif.Props.C63

/-!
# C65: cursors that are not in the tree are rejected

A cursor is outside if its leaf has been removed or its offset lies behind the end of the element.  The operations that change the tree
at a cursor panic then: `insert_by_path`, `insert_many_by_cursor`, `update` and `Drain::new`.  In particular a drain of positions beyond
the end of the tree panics, where the query gives a cursor with `found = false` into the last element (C09).

(`iter_range` does not look at the offset: C16.  `Rope` clips its ranges: C61.)
-/

namespace GB
variable {E C D X σ : Type}
open Tree

/-- the leaf is gone or the offset lies behind the element -/
def Outside (B : Trait E C D) (t : Seq E) (c : Cursor) : Prop := ∀ e, (c.leaf, e) ∈ t.es → B.rleLen e < c.offset

theorem cut_gone {B : Trait E C D} {s : Tree E C} {pos : Cursor} (hel : elm s pos.leaf = none) : splitLeafIfNeeded B s pos = .error .panic := by
  have : s.lf.get pos.leaf = none := by
    cases hL : s.lf.get pos.leaf with
    | none => rfl
    | some L => simp [elm, hL] at hel
  simp only [splitLeafIfNeeded, splitLeafIfNeededF, Tree.getLf, this]
  rfl

theorem cut_reject {B : Trait E C D} {s : Tree E C} {lvl : Nat → Nat} {h : Nat} (w : WF s lvl h) (ne : NE s) {pos : Cursor}
    (ho : ∀ e, elm s pos.leaf = some e → B.rleLen e < pos.offset) : splitLeafIfNeeded B s pos = .error .panic := by
  cases he : elm s pos.leaf with
  | none => exact cut_gone he
  | some e => exact cut_outside w ne he (ho e he)

/-- two cuts, as in `update` and `Drain::new` -/
theorem cuts_reject {B : Trait E C D} {A : Law B} {s : Tree E C} {m : Fill} (hm : 1 ≤ m.lo ∧ m.lo + m.d ≤ 5) (hi : Inv A m s) (hsl : SplitLen B A.okE)
    {a b : Cursor} (hout : Outside B (abs s) b ∨ (a.leaf < (abs s).next ∧ Outside B (abs s) a)) :
    splitLeafIfNeeded B s b = .error .panic ∨ ∃ ei s1, splitLeafIfNeeded B s b = .ok (ei, s1) ∧ splitLeafIfNeeded B s1 a = .error .panic := by
  obtain ⟨h, ⟨lvl, g⟩, sz⟩ := hi
  have ne := Sz.ne sz hm.1
  by_cases hb : Outside B (abs s) b
  · exact .inl (cut_reject g.wf ne fun e he => hb e ((entries_mem g.wf).mpr he))
  obtain ⟨hfr, ha⟩ := hout.resolve_left hb
  obtain ⟨e, he, hoff⟩ : ∃ e, elm s b.leaf = some e ∧ b.offset ≤ B.rleLen e := by
    simp only [Outside, Classical.not_forall] at hb
    obtain ⟨e, he, hl⟩ := hb
    exact ⟨e, (entries_mem g.wf).mp he, by omega⟩
  obtain ⟨ei, s1, lvl1, h1, q1, g1, sz1, -, -, rel1⟩ := splitLeafIfNeeded_spec hm.1 (by omega) g sz he hoff (Or.inl hm.2)
  obtain ⟨U, V, L, R, o1, o2, n1, c1, cs1⟩ := cutRel_lists g.wf rel1 he hoff
  refine .inr ⟨ei, s1, q1, cut_reject g1.wf (Sz.ne sz1 hm.1) fun x hx => ?_⟩
  rcases cs1 with ⟨-, -, -, h0⟩ | ⟨-, -, -, -, h0⟩ | ⟨h0, h2, -, -, y, z, hs, hk⟩
  · rw [h0] at hx
    exact ha x ((entries_mem g.wf).mpr hx)
  · rw [h0] at hx
    exact ha x ((entries_mem g.wf).mpr hx)
  · rw [hk, if_neg (by have : a.leaf < s.lf.items.length := hfr; omega)] at hx
    split at hx
    · next hab =>
      cases hx
      have h3 := (hsl e b.offset x z (g.okE _ _ he) h0 h2 hs).1
      have h4 := ha e ((entries_mem g.wf).mpr (by rw [hab]; exact he))
      omega
    · exact ha x ((entries_mem g.wf).mpr hx)

/-- `insert_by_path`: it panics, if `try_insert` does not take the element. -/
theorem C65_insert {B : Trait E C D} {A : Law B} {m : Fill} {s : Tree E C} (hm : 1 ≤ m.lo) (hi : Inv A m s) {c : Cursor} (hc : Outside B (abs s) c) {d : E}
    (ht : ∀ e, (c.leaf, e) ∈ (abs s).es → B.tryInsert e c.offset d = .error .panic ∨ ∃ d', B.tryInsert e c.offset d = .ok (.inr d')) :
    insertByPath B s c d = .error .panic := by
  obtain ⟨h, ⟨lvl, g⟩, sz⟩ := hi
  have hcut := cut_reject g.wf (Sz.ne sz hm) (B := B) fun e he => hc e ((entries_mem g.wf).mpr he)
  cases hL : s.lf.get c.leaf with
  | none => simp only [insertByPath, Tree.getLf, hL]; rfl
  | some L =>
    have hg : s.getLf c.leaf = .ok L := by rw [Tree.getLf, hL]; rfl
    have hmem : (c.leaf, L.elem) ∈ (abs s).es := (entries_mem g.wf).mpr (by simp [elm, hL])
    have hlt := hc _ hmem
    rcases ht _ hmem with ht | ⟨d', ht⟩
    · simp only [insertByPath, hg, bind_ok, ht]; rfl
    · have h1 : ¬ (c.offset = 0 ∧ B.canMerge d' L.elem) := by omega
      have h2 : ¬ (c.offset = B.rleLen L.elem ∧ B.canMerge L.elem d') := by omega
      simp only [insertByPath, hg, ht, bind_ok, hcut, h1, h2, if_false]
      rfl

/-- `insert_many_by_cursor` with something to insert does not succeed. -/
theorem C65_insert_many {B : Trait E C D} {A : Law B} {m : Fill} {s : Tree E C} (hm : 1 ≤ m.lo) (hi : Inv A m s) {c : Cursor} (hc : Outside B (abs s) c)
    (ht : ∀ e d, (c.leaf, e) ∈ (abs s).es → B.tryInsert e c.offset d = .error .panic ∨ ∃ d', B.tryInsert e c.offset d = .ok (.inr d'))
    {ds : List E} (hds : ds ≠ []) (s' : Tree E C) : insertMany B s (some c) ds ≠ .ok s' := by
  have hins : ∀ d, insertByPath B s c d = .error .panic := fun d => C65_insert hm hi hc fun e he => ht e d he
  obtain ⟨h, ⟨lvl, g⟩, sz⟩ := hi
  have hcut := cut_reject g.wf (Sz.ne sz hm) (B := B) fun e he => hc e ((entries_mem g.wf).mpr he)
  intro hr
  cases ds with
  | nil => exact hds rfl
  | cons d ds =>
    cases ds with
    | nil =>
      simp only [insertMany, hins] at hr
      cases hr
    | cons d2 ds =>
      obtain ⟨data, h1, h2⟩ := bind_inv (show (mergeAdj B (d :: d2 :: ds) >>= _) = .ok s' from hr)
      split at h2
      · next e c' hc' =>
        cases hc'
        simp only [hins] at h2
        cases h2
      · next hc' => cases hc'
      · next cur' _ _ =>
        obtain ⟨emp, h3, h4⟩ := bind_inv h2
        simp only [hcut] at h4
        cases h4

/-- `update(a..b, f)` panics if one of the cursors is outside. -/
theorem C65_update {B : Trait E C D} {A : Law B} {cont : E → List X} (K : ContentLaw B A.okE cont) {m : Fill} {s : Tree E C}
    (hm : 1 ≤ m.lo ∧ m.lo + m.d ≤ 5) (hi : Inv A m s) {a b : Cursor} (hout : Outside B (abs s) b ∨ (a.leaf < (abs s).next ∧ Outside B (abs s) a))
    (ho : HashOrd E) (f : σ → E → M (σ × E × Option D)) (st : σ) : update B ho f st s a b = .error .panic := by
  rcases cuts_reject hm hi K.splitLen hout with h1 | ⟨ei, s1, h1, h2⟩
  · simp only [update, h1]; rfl
  · simp only [update, h1, bind_ok, h2]; rfl

/-- `Drain::new` panics if one of the cursors is outside. -/
theorem C65_drain {B : Trait E C D} {A : Law B} {cont : E → List X} (K : ContentLaw B A.okE cont) {m : Fill} {s : Tree E C}
    (hm : 1 ≤ m.lo ∧ m.lo + m.d ≤ 5) (hi : Inv A m s) {a b : Cursor} (hout : Outside B (abs s) b ∨ (a.leaf < (abs s).next ∧ Outside B (abs s) a))
    (fa fb : Bool) : drainNew B s (some ⟨a, fa⟩) (some ⟨b, fb⟩) = .error .panic := by
  rcases cuts_reject hm hi K.splitLen hout with h1 | ⟨ei, s1, h1, h2⟩
  · simp only [drainNew, h1]; rfl
  · simp only [drainNew, h1, bind_ok, h2]; rfl

/-- A drain of positions panics if one of them lies behind the end of a tree that is not empty. -/
theorem C65_drain_beyond {B : Trait E C D} {A : Law B} {cont : E → List X} (K : ContentLaw B A.okE cont) {getLen : C → Nat} (L : LenLaw A getLen)
    {m : Fill} {s : Tree E C} (hm : 1 ≤ m.lo ∧ m.lo + m.d ≤ 5) (hi : Inv A m s) (hne : (abs s).es ≠ []) {i j : Nat}
    (hij : unitLen B (abs s).es < i ∨ unitLen B (abs s).es < j) (k : Nat) : drainByQuery B (lenQuery B getLen) s i j k = .error .panic := by
  have hq : ∀ i, ∃ r, query (lenQuery B getLen) s i = .ok (some r) ∧ r.cursor.leaf < (abs s).next ∧
      (unitLen B (abs s).es < i → Outside B (abs s) r.cursor) := by
    intro i
    obtain ⟨U, l, e, V, o, h1, h2, h3, -, h5, -⟩ := C09_query_len L hm.1 hi hne i
    obtain ⟨h, ⟨lvl, g⟩, -⟩ := id hi
    refine ⟨_, h2, ?_, fun hlt x hx => ?_⟩
    · exact entries_lt (show (l, e) ∈ (abs s).es by rw [h1]; simp)
    · have nd := entries_nodup g.wf
      have hx' : x = e := by
        have h6 := (entries_mem g.wf).mp hx
        have h7 := (entries_mem g.wf).mp (show (l, e) ∈ entries s by rw [show entries s = _ from h1]; simp)
        exact Option.some.inj (h6.symm.trans h7)
      have hV := h5 (by omega)
      rw [h1, hV, unitLen_append] at hlt
      subst hx'
      simp [unitLen] at hlt h3 ⊢
      omega
  obtain ⟨ra, a1, a2, a3⟩ := hq i
  obtain ⟨rb, b1, -, b3⟩ := hq j
  have := C65_drain K hm hi (a := ra.cursor) (b := rb.cursor) (hij.symm.imp b3 fun h => ⟨a2, a3 h⟩) ra.found rb.found
  simp only [drainByQuery, a1, b1, bind_ok]
  rw [show drainNew B s (some ra) (some rb) = _ from this]
  rfl

/-! ## The instances -/

theorem GapBuf.tryInsert_outside {g d : GapBuf} {i : Nat} (h : g.len < i) :
    GapBuf.tryInsert g i d = .error .panic ∨ ∃ d', GapBuf.tryInsert g i d = .ok (.inr d') := by
  unfold GapBuf.tryInsert
  split
  · exact .inr ⟨d, rfl⟩
  · left
    unfold GapBuf.insertBytesPair
    simp only
    split
    · rfl
    · simp only [GapBuf.shiftAt, if_pos h]
      rfl

/-- chunks of text -/
theorem C65_rope_insert {cap : Nat} {m : Fill} {s : Tree GapBuf Int} (hm : 1 ≤ m.lo) (hi : Inv (ropeLaw cap) m s) {c : Cursor} (hc : Outside ropeTrait (abs s) c)
    (d : GapBuf) : insertByPath ropeTrait s c d = .error .panic :=
  C65_insert hm hi hc fun e he => GapBuf.tryInsert_outside (hc e he)

/-- runs of the range map -/
theorem C65_range_insert {m : Fill} {s : RangeMap} (hm : 1 ≤ m.lo) (hi : Inv rangeLaw m s) {c : Cursor} (hc : Outside rangeTrait (abs s) c)
    (d : RElem) : insertByPath rangeTrait s c d = .error .panic :=
  C65_insert hm hi hc fun _ _ => .inr ⟨d, rfl⟩

/-- `RangeNumMap::drain` beyond the length of the map panics, unless the map is empty. -/
theorem C65_range_drain {m : Fill} {s : RangeMap} (hm : 1 ≤ m.lo ∧ m.lo + m.d ≤ 5) (hi : Inv rangeLaw m s) (h0 : RangeMap.len s ≠ 0) {i j : Nat}
    (hij : RangeMap.len s < i ∨ RangeMap.len s < j) : RangeMap.drain s i j = .error .panic := by
  have hlen : RangeMap.len s = unitLen rangeTrait (abs s).es := by
    rw [RangeMap.len_spec hm.1 hi]; exact content_length rangeContent hi.okE
  rw [hlen] at hij h0
  rw [RangeMap.drain_eq, show drainByQuery rangeTrait rangeQuery s i j 0 = _ from
    C65_drain_beyond rangeContent rangeLenLaw hm hi (fun h => h0 (by rw [h]; rfl)) hij 0]
  rfl

/-- the sample rope, behind the end of leaf 7 and at a leaf that does not exist -/
example : insertByPath ropeTrait ropeSample ⟨7, 4⟩ (letter 65) = .error .panic ∧
    drainNew ropeTrait ropeSample (some ⟨⟨3, 1⟩, true⟩) (some ⟨⟨7, 4⟩, true⟩) = .error .panic ∧
    insertByPath ropeTrait ropeSample ⟨99, 0⟩ (letter 65) = .error .panic := by
  have hg : Outside ropeTrait (abs ropeSample) ⟨99, 0⟩ := by
    rw [ropeSample_spec.2]
    intro e he
    obtain ⟨i, h1, h2⟩ := List.mem_map.mp he
    have := List.mem_range.mp h1
    have h3 : i = 99 := congrArg Prod.fst h2
    omega
  have hc : Outside ropeTrait (abs ropeSample) ⟨7, 4⟩ := by
    rw [ropeSample_spec.2]
    intro e he
    have : ∀ x ∈ (List.range 30).map fun i => (i, (⟨[UInt8.ofNat i, 1, 2, 0], 3, 1⟩ : GapBuf)), ropeTrait.rleLen x.2 < 4 := by decide
    exact this (7, e) he
  exact ⟨C65_rope_insert (by decide) ropeSample_spec.1 hc _, C65_drain (ropeContent 4) (by decide) ropeSample_spec.1 (.inl hc) _ _,
    C65_rope_insert (by decide) ropeSample_spec.1 hg _⟩

private theorem out7 : Outside ropeTrait (abs ropeSample) ⟨7, 4⟩ := by
  rw [ropeSample_spec.2]
  intro e he
  have : ∀ x ∈ (List.range 30).map fun i => (i, (⟨[UInt8.ofNat i, 1, 2, 0], 3, 1⟩ : GapBuf)), ropeTrait.rleLen x.2 < 4 := by decide
  exact this (7, e) he

example := C65_insert (by decide) ropeSample_spec.1 out7 (d := letter 65) fun e he => GapBuf.tryInsert_outside (out7 e he)

example := C65_insert_many (by decide) ropeSample_spec.1 out7 (fun e _ he => GapBuf.tryInsert_outside (out7 e he)) (ds := [letter 65, letter 66]) (by simp)

example := C65_update (ropeContent 4) (by decide) ropeSample_spec.1 (a := ⟨3, 1⟩) (.inl out7) ⟨id, id, id⟩ (fun (n : Nat) e => .ok (n + 1, e, none)) 0

example := C65_drain_beyond (ropeContent 4) (ropeLenLaw 4) (by decide) ropeSample_spec.1 (by rw [ropeSample_spec.2]; simp) (i := 3) (j := 91)
  (.inr (by rw [ropeSample_spec.2]; decide)) 0

/-- a range map of 20 cells, a cursor behind its end, and a drain to cell 21 -/
example : ∃ (s : RangeMap) (l : Nat), l ∈ (abs s).es.map Prod.fst ∧ insertByPath rangeTrait s ⟨l, 1000⟩ ⟨some 3, 1⟩ = .error .panic ∧
    RangeMap.drain s 3 21 = .error .panic := by
  obtain ⟨s, -, hi, hl, -⟩ := C47_history (os := [(⟨id, id, id⟩, .insert 5 10 1)]) (by simp [RangeOp.valid]) (by decide)
  have hl : RangeMap.len s = 20 := hl
  have hne : (abs s).es ≠ [] := by
    intro h
    have : RangeMap.len s = unitLen rangeTrait (abs s).es := by
      rw [RangeMap.len_spec (by decide) hi]; exact content_length rangeContent hi.okE
    rw [h, hl] at this
    cases this
  have hu : unitLen rangeTrait (abs s).es = 20 := by
    rw [← hl, RangeMap.len_spec (by decide) hi]; exact (content_length rangeContent hi.okE).symm
  obtain ⟨x, hx⟩ := List.exists_mem_of_ne_nil _ hne
  refine ⟨s, x.1, List.mem_map_of_mem hx, C65_range_insert (by decide) hi (fun e he => ?_) _, C65_range_drain (by decide) hi (by omega) (.inr (by omega))⟩
  obtain ⟨U, V, hUV⟩ := List.append_of_mem he
  have hu : unitLen rangeTrait U + (rangeTrait.rleLen e + unitLen rangeTrait V) = 20 := by rw [← hu, hUV, unitLen_append, unitLen_cons]
  show rangeTrait.rleLen e < 1000
  omega

end GB

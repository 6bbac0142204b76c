import Verif.Proof.DrainAll
import Verif.Proof.Sample
import Verif.Proof.SampleTwo

/-!
# C18: `drain` removes and yields exactly the range

`drain` models creating the iterator, calling `next` `k` times and dropping it.  It returns the elements yielded, the
elements thrown away by `Drop` and the new tree.  Side conditions: elements have positive lengths (with an end cursor in
an element of length 0 the cache repair starts at the wrong leaf) and the start is not at the very end of the tree (there
the iterator panics on drop: C19).  A path of more than 10 nodes panics and the two cuts may add a level: on trees of at most 8
levels there is no panic, on trees of 10 or more levels there always is one, and on trees of 9 levels there is one exactly if one of
the cuts adds a level (`C18_panics_iff`).  Whenever there is no panic, the result is right.
-/

namespace GB
variable {E C D X : Type}
open Tree

/-- Every valid tree of height at most 8, or of any height if the call does not panic; any two cursors in order, any number `k`
of calls of `next`: no panic; the elements yielded are the first `k` of the range and the rest is thrown away; the tree that is left is valid and has
exactly the elements outside the range, where `specDrain` is the specification on sequences.  Nodes that are not on the left
edge keep the lower bound on the number of children (`m.drained`). -/
theorem C18_drain {B : Trait E C D} {A : Law B} {m : Fill} {h : Nat} {s : Tree E C} (hm : 1 ≤ m.lo ∧ m.lo + m.d ≤ 5) (hi : InvH A m h s)
    (hsl : SplitLen B A.okE) (hpos : ∀ x ∈ (abs s).es, 0 < B.rleLen x.2) {a b : Cursor} {Ua Va Ub Vb : List (Nat × E)} {ea eb : E}
    (ha : (abs s).es = Ua ++ (a.leaf, ea) :: Va) (hoa : a.offset ≤ B.rleLen ea)
    (hb : (abs s).es = Ub ++ (b.leaf, eb) :: Vb) (hob : b.offset ≤ B.rleLen eb)
    (hle : unitLen B Ua + a.offset ≤ unitLen B Ub + b.offset) (hend : unitLen B Ua + a.offset < unitLen B (abs s).es) (fa fb : Bool) (k : Nat)
    (hh : h ≤ 8 ∨ drain B s ⟨a, fa⟩ ⟨b, fb⟩ k ≠ .error .panic) :
    ∃ Y s' h', drain B s ⟨a, fa⟩ ⟨b, fb⟩ k = .ok ((Y.take k).map Prod.snd, (Y.drop k).map Prod.snd, s') ∧
      specDrain B (abs s) a b = .ok (Y, abs s') ∧ InvH A m.drained h' s' ∧ h' ≤ h + 1 := by
  obtain ⟨⟨lvl, g⟩, sz⟩ := hi
  obtain ⟨ua, va, o1, rfl, -, hea⟩ := entries_split g.wf ha
  obtain ⟨ub, vb, o2, rfl, -, heb⟩ := entries_split g.wf hb
  obtain ⟨Y, s', lvl', h', d1, d2, d3, d4, L, R, X, n, k1, k2, k3⟩ := drain_spec hm.1 hm.2 g sz hsl
    (fun l x hx => hpos (l, x) ((entries_mem g.wf).mpr hx)) o1 hea hoa o2 heb hob hle hend fa fb k hh
  refine ⟨Y, s', h', d1, ?_, ⟨⟨lvl', d2⟩, d3⟩, d4⟩
  simp only [specDrain, k1, bind_ok, k2, pure_ok, List.length_append, Nat.add_sub_cancel, List.take_left]
  rw [abs, k3]

/-- When `drain` panics: on ten or more levels always; on nine exactly if a cut raises the tree (`CutsRaise`), that is, if the end, or
after that the start, lies inside an element above which all nodes are full; on fewer never. -/
theorem C18_panics_iff {B : Trait E C D} {A : Law B} {m : Fill} {h : Nat} {s : Tree E C} (hm : 1 ≤ m.lo ∧ m.lo + m.d ≤ 5) (hi : InvH A m h s)
    (hsl : SplitLen B A.okE) (hpos : ∀ x ∈ (abs s).es, 0 < B.rleLen x.2) {a b : Cursor} {Ua Va Ub Vb : List (Nat × E)} {ea eb : E}
    (ha : (abs s).es = Ua ++ (a.leaf, ea) :: Va) (hoa : a.offset ≤ B.rleLen ea)
    (hb : (abs s).es = Ub ++ (b.leaf, eb) :: Vb) (hob : b.offset ≤ B.rleLen eb)
    (hle : unitLen B Ua + a.offset ≤ unitLen B Ub + b.offset) (hend : unitLen B Ua + a.offset < unitLen B (abs s).es) (fa fb : Bool) (k : Nat) :
    drain B s ⟨a, fa⟩ ⟨b, fb⟩ k = .error .panic ↔ 10 ≤ h ∨ h = 9 ∧ CutsRaise B s a b := by
  obtain ⟨⟨lvl, g⟩, sz⟩ := hi
  obtain ⟨ua, va, o1, rfl, -, hea⟩ := entries_split g.wf ha
  obtain ⟨ub, vb, o2, rfl, -, heb⟩ := entries_split g.wf hb
  exact drain_panics hm.1 hm.2 g sz hsl (fun l x hx => hpos (l, x) ((entries_mem g.wf).mpr hx)) o1 hea hoa o2 heb hob hle hend fa fb k

/-- The same in units: the range from the position `i` of the start to the position `j` of the end is taken out. -/
theorem C18_drain_content {B : Trait E C D} {A : Law B} {cont : E → List X} (K : ContentLaw B A.okE cont) {m : Fill} {h : Nat} {s : Tree E C}
    (hm : 1 ≤ m.lo ∧ m.lo + m.d ≤ 5) (hi : InvH A m h s) (hpos : ∀ x ∈ (abs s).es, 0 < B.rleLen x.2)
    {a b : Cursor} {Ua Va Ub Vb : List (Nat × E)} {ea eb : E} {i j : Nat}
    (ha : (abs s).es = Ua ++ (a.leaf, ea) :: Va) (hoa : a.offset ≤ B.rleLen ea) (hia : unitLen B Ua + a.offset = i)
    (hb : (abs s).es = Ub ++ (b.leaf, eb) :: Vb) (hob : b.offset ≤ B.rleLen eb) (hjb : unitLen B Ub + b.offset = j)
    (hle : i ≤ j) (hend : i < unitLen B (abs s).es) (fa fb : Bool) (k : Nat)
    (hh : h ≤ 8 ∨ drain B s ⟨a, fa⟩ ⟨b, fb⟩ k ≠ .error .panic) :
    ∃ Y s' h', drain B s ⟨a, fa⟩ ⟨b, fb⟩ k = .ok ((Y.take k).map Prod.snd, (Y.drop k).map Prod.snd, s') ∧ InvH A m.drained h' s' ∧ h' ≤ h + 1 ∧
      content cont Y = ((content cont (abs s).es).drop i).take (j - i) ∧
      content cont (abs s').es = (content cont (abs s).es).take i ++ (content cont (abs s).es).drop j ∧
      (∀ x ∈ (abs s').es, 0 < B.rleLen x.2) ∧ (∀ x ∈ Y, A.okE x.2 ∧ 0 < B.rleLen x.2) := by
  obtain ⟨⟨lvl, g⟩, sz⟩ := hi
  have nd := entries_nodup g.wf
  have hpa : posOf B (abs s) a = some i := by
    rw [posOf, show locate a.leaf (abs s).es = _ from locate_split nd ha, ← hia]; rfl
  have hpb : posOf B (abs s) b = some j := by
    rw [posOf, show locate b.leaf (abs s).es = _ from locate_split nd hb, ← hjb]; rfl
  obtain ⟨ua, va, o1, rfl, -, hea⟩ := entries_split g.wf ha
  obtain ⟨ub, vb, o2, rfl, -, heb⟩ := entries_split g.wf hb
  have hsl := K.splitLen
  obtain ⟨Y, s', lvl', h', d1, d2, d3, d4, L, R, X, n, k1, k2, k3⟩ := drain_spec hm.1 hm.2 g sz hsl
    (fun l x hx => hpos (l, x) ((entries_mem g.wf).mpr hx)) o1 hea hoa o2 heb hob (by omega) (by rw [hia]; exact hend) fa fb k hh
  have hfr : (abs s).next ∉ (abs s).es.map Prod.fst := by
    show s.lf.items.length ∉ (entries s).map Prod.fst
    rw [entries_fst g.wf]; exact fresh_order g.wf
  have hok : ∀ x ∈ (abs s).es, A.okE x.2 ∧ 0 < B.rleLen x.2 := fun x hx => ⟨g.okE x.1 x.2 ((entries_mem g.wf).mp hx), hpos x hx⟩
  have hsp : ∀ e i x y, A.okE e ∧ 0 < B.rleLen e → 0 < i → i < B.rleLen e → B.split e i = .ok (x, y) →
      (A.okE x ∧ 0 < B.rleLen x) ∧ (A.okE y ∧ 0 < B.rleLen y) ∧ cont x = (cont e).take i ∧ cont y = (cont e).drop i := by
    intro e i x y he h0 h1 hs
    obtain ⟨x', y', q1, q2, q3, -⟩ := A.split e i he.1 h0 h1
    rw [hs] at q1
    cases q1
    obtain ⟨l1, l2⟩ := hsl e i x y he.1 h0 h1 hs
    obtain ⟨c1, c2⟩ := K.split e i x y he.1 h0 h1 hs
    exact ⟨⟨q2, by omega⟩, ⟨q3, by omega⟩, c1, c2⟩
  obtain ⟨c1, c2, c3⟩ := drain_content (fun e he => K.len e he.1) hsp hok nd hfr k1 k2 hpa hpb
  have hsp' := fun e i x y h1 h2 h3 h4 => And.intro (hsp e i x y h1 h2 h3 h4).1 (hsp e i x y h1 h2 h3 h4).2.1
  have ok1 := specCut_ok hsp' hok k1
  have ok2 := specCut_ok hsp' (t := ⟨n, L ++ R⟩) ok1 k2
  refine ⟨Y, s', h', d1, ⟨⟨lvl', d2⟩, d3⟩, d4, ?_, ?_, ?_, ?_⟩
  · rw [← c3, content_append]
    have hl := congrArg List.length c3
    rw [content_append, c2, List.length_append, List.length_drop, List.length_drop] at hl
    have ht : j ≤ (content cont (abs s).es).length := by
      rw [content_length K (fun x hx => (hok x hx).1), hb, ← hjb, unitLen_append, unitLen_cons]
      simp only
      omega
    rw [show j - i = (content cont Y).length by omega, List.take_left]
  · show content cont (entries s') = _
    rw [k3, content_append, c1, c2]
  · intro x hx
    have hx : x ∈ entries s' := hx
    rw [k3, List.mem_append] at hx
    refine (ok2 x ?_).2
    simp only [List.mem_append]
    rcases hx with hx | hx <;> simp [hx]
  · intro x hx
    exact ok2 x (by simp [hx])

/-- `drain_by_query` with the length finder: positions `i ≤ j`, `i` before the end. -/
theorem C18_drain_by_query {B : Trait E C D} {A : Law B} {cont : E → List X} (K : ContentLaw B A.okE cont) {getLen : C → Nat} (L : LenLaw A getLen)
    {m : Fill} {h : Nat} {s : Tree E C} (hm : 1 ≤ m.lo ∧ m.lo + m.d ≤ 5) (hi : InvH A m h s) (hpos : ∀ x ∈ (abs s).es, 0 < B.rleLen x.2) {i j : Nat}
    (hle : i ≤ j) (hj : j ≤ unitLen B (abs s).es) (hend : i < unitLen B (abs s).es) (k : Nat)
    (hh : h ≤ 8 ∨ drainByQuery B (lenQuery B getLen) s i j k ≠ .error .panic) :
    ∃ Y s' h', drainByQuery B (lenQuery B getLen) s i j k = .ok ((Y.take k).map Prod.snd, (Y.drop k).map Prod.snd, s') ∧
      InvH A m.drained h' s' ∧ h' ≤ h + 1 ∧ content cont Y = ((content cont (abs s).es).drop i).take (j - i) ∧
      content cont (abs s').es = (content cont (abs s).es).take i ++ (content cont (abs s).es).drop j ∧
      (∀ x ∈ (abs s').es, 0 < B.rleLen x.2) ∧ (∀ x ∈ Y, A.okE x.2 ∧ 0 < B.rleLen x.2) := by
  have ho : order s ≠ [] := by
    intro hc
    rw [(abs_nil hi).mpr hc] at hend
    simp [unitLen] at hend
  obtain ⟨lvl, g⟩ := hi.ex
  obtain ⟨Ua, la, ea, Va, oa, a1, a2, a3, a4, a5⟩ := lenQuery_spec g (hi.ne hm.1) L ho i
  obtain ⟨Ub, lb, eb, Vb, ob, b1, b2, b3, b4, b5⟩ := lenQuery_spec g (hi.ne hm.1) L ho j
  have hob : ob ≤ B.rleLen eb := by
    by_cases hc : j < unitLen B (abs s).es
    · exact Nat.le_of_lt (b4 hc)
    · have hV := b5 (by show unitLen B (abs s).es ≤ j; omega)
      have : unitLen B (abs s).es = unitLen B Ub + B.rleLen eb := by
        rw [show (abs s).es = entries s from rfl, b1, hV]; simp
      have b3' : unitLen B Ub + ob = j := b3
      omega
  obtain ⟨Y, s', h', d1, d2, d3, d4, d5, d6, d7⟩ := C18_drain_content K hm hi hpos (a := ⟨la, oa⟩) (b := ⟨lb, ob⟩) (i := i) (j := j)
    (show (abs s).es = _ from a1) (Nat.le_of_lt (a4 hend)) a3 (show (abs s).es = _ from b1) hob b3 hle hend (decide (i < unitLen B (entries s))) (decide (j < unitLen B (entries s))) k (by
      rw [drainByQuery, a2, bind_ok, b2, bind_ok] at hh
      exact hh)
  refine ⟨Y, s', h', ?_, d2, d3, d4, d5, d6, d7⟩
  rw [drainByQuery, a2, bind_ok, b2, bind_ok]
  exact d1

/-- a tree with at least five children per node and fewer than 781250 elements is low enough -/
theorem C18_height {B : Trait E C D} {A : Law B} {m : Fill} {s : Tree E C} (hi : Inv A m s) (hm : 5 ≤ m.lo) (hn : (abs s).es.length < 781250) :
    ∃ h, h ≤ 8 ∧ InvH A m h s := by
  obtain ⟨h, ⟨lvl, g⟩, sz⟩ := hi
  refine ⟨h, ?_, ⟨lvl, g⟩, sz⟩
  apply Decidable.byContradiction
  intro hh
  have h1 : 2 * 5 ^ (h - 1) ≤ _ := height_bound g.wf (Sz.mono (m' := 5) sz hm (Nat.le_trans hm (Nat.le_add_right _ _))) (by omega)
  have h2 : 5 ^ 8 ≤ 5 ^ (h - 1) := Nat.pow_le_pow_right (by omega) (by omega)
  have : 5 ^ 8 = 390625 := by decide
  have hn : (entries s).length < 781250 := hn
  omega

/-- from the middle of chunk 3 to the middle of chunk 20, two elements taken before the drop -/
example : ∃ (Y : List (Nat × GapBuf)) (s' : Tree GapBuf Int) (h' : Nat), drain ropeTrait ropeSample ⟨⟨3, 1⟩, true⟩ ⟨⟨20, 2⟩, true⟩ 2 = .ok ((Y.take 2).map Prod.snd, (Y.drop 2).map Prod.snd, s') ∧
    InvH (ropeLaw 4) ⟨1, 4⟩ h' s' ∧ content GapBuf.toVec (abs s').es = [0, 1, 2, 1, 1, 2, 2, 1, 2, 3, 2] ++ (List.range 9).flatMap fun i => [UInt8.ofNat (i + 21), 1, 2] := by
  obtain ⟨h, h7, hi⟩ := C18_height ropeSample_spec.1 (by decide) (by rw [ropeSample_spec.2]; decide)
  obtain ⟨Y, s', h', d1, d2, -, -, d5, -⟩ := C18_drain_content (ropeContent 4) (by decide) hi (by rw [ropeSample_spec.2]; decide)
    (a := ⟨3, 1⟩) (b := ⟨20, 2⟩) (i := 10) (j := 62) (ea := ⟨[3, 1, 2, 0], 3, 1⟩) (eb := ⟨[20, 1, 2, 0], 3, 1⟩)
    (Ua := (List.range 3).map fun i => (i, ⟨[UInt8.ofNat i, 1, 2, 0], 3, 1⟩))
    (Va := (List.range 26).map fun i => (i + 4, ⟨[UInt8.ofNat (i + 4), 1, 2, 0], 3, 1⟩))
    (by rw [ropeSample_spec.2]; rfl) (by decide) (by decide)
    (Ub := (List.range 20).map fun i => (i, ⟨[UInt8.ofNat i, 1, 2, 0], 3, 1⟩))
    (Vb := (List.range 9).map fun i => (i + 21, ⟨[UInt8.ofNat (i + 21), 1, 2, 0], 3, 1⟩))
    (by rw [ropeSample_spec.2]; rfl) (by decide) (by decide) (by decide) (by rw [ropeSample_spec.2]; decide) true true 2 (.inl h7)
  refine ⟨Y, s', h', d1, d2, d5.trans ?_⟩
  rw [ropeSample_spec.2]
  decide

/-- on the sample, of three levels, no `drain` panics -/
example : drain ropeTrait ropeSample ⟨⟨3, 1⟩, true⟩ ⟨⟨20, 2⟩, true⟩ 2 ≠ .error .panic := by
  obtain ⟨h, h7, hi⟩ := C18_height ropeSample_spec.1 (by decide) (by rw [ropeSample_spec.2]; decide)
  rw [ne_eq, C18_panics_iff (by decide) hi (ropeContent 4).splitLen (by rw [ropeSample_spec.2]; decide)
    (a := ⟨3, 1⟩) (b := ⟨20, 2⟩) (ea := ⟨[3, 1, 2, 0], 3, 1⟩) (eb := ⟨[20, 1, 2, 0], 3, 1⟩)
    (Ua := (List.range 3).map fun i => (i, ⟨[UInt8.ofNat i, 1, 2, 0], 3, 1⟩))
    (Va := (List.range 26).map fun i => (i + 4, ⟨[UInt8.ofNat (i + 4), 1, 2, 0], 3, 1⟩))
    (by rw [ropeSample_spec.2]; rfl) (by decide)
    (Ub := (List.range 20).map fun i => (i, ⟨[UInt8.ofNat i, 1, 2, 0], 3, 1⟩))
    (Vb := (List.range 9).map fun i => (i + 21, ⟨[UInt8.ofNat (i + 21), 1, 2, 0], 3, 1⟩))
    (by rw [ropeSample_spec.2]; rfl) (by decide) (by decide) (by rw [ropeSample_spec.2]; decide) true true 2]
  omega

example : ∃ (Y : List (Nat × GapBuf)) (s' : Tree GapBuf Int), drainByQuery ropeTrait ropeQuery ropeSample 10 62 100 = .ok ((Y.take 100).map Prod.snd, (Y.drop 100).map Prod.snd, s') := by
  obtain ⟨h, h7, hi⟩ := C18_height ropeSample_spec.1 (by decide) (by rw [ropeSample_spec.2]; decide)
  obtain ⟨Y, s', h', d1, -⟩ := C18_drain_by_query (ropeContent 4) (ropeLenLaw 4) (by decide) hi (by rw [ropeSample_spec.2]; decide)
    (i := 10) (j := 62) (by decide) (by rw [ropeSample_spec.2]; decide) (by rw [ropeSample_spec.2]; decide) 100 (.inl h7)
  exact ⟨Y, s', d1⟩

example := C18_drain (by decide) ropeSample_two (ropeContent 4).splitLen (by rw [ropeSample_es]; decide) (a := ⟨3, 1⟩) (b := ⟨20, 2⟩)
  (ropeSample_at (k := 3) (by decide)) (by decide) (ropeSample_at (k := 20) (by decide)) (by decide) (by decide) (by rw [ropeSample_es]; decide) true true 2 (.inl (by decide))

end GB

import Verif.Model.UnitTests
import Verif.Props.C33
import Verif.Props.C36
import Verif.Props.C38
import Verif.Props.C59
import Verif.Props.C60
import Verif.Props.C81

/-!
# C82: the fixed unit tests hold for all data

The unit tests of the crate run on one or two hand-made inputs each.  Here their data are parameters, and the tests pass exactly if the
expected values are the right ones.  Two of them turn out to see less than they seem to: `test_delete` of ord.rs also passes if another key
is deleted than was inserted (the defect of C33), and `test_clear` of rope.rs stops passing with two more inserts (the defect of C36).
-/

namespace GB
open Tree

/-! ## Chunks -/

/-- the content after a list of inserts -/
def gapFinal : List UInt8 → List (Nat × List UInt8 × List UInt8) → List UInt8
  | t, [] => t
  | t, (i, b, _) :: l => gapFinal (t.take i ++ b ++ t.drop i) l

/-- every insert is within the content and fits -/
def gapFits (cap : Nat) : List UInt8 → List (Nat × List UInt8 × List UInt8) → Prop
  | _, [] => True
  | t, (i, b, _) :: l => i ≤ t.length ∧ t.length + b.length ≤ cap ∧ gapFits cap (t.take i ++ b ++ t.drop i) l

/-- every expected content is the right one -/
def gapRight : List UInt8 → List (Nat × List UInt8 × List UInt8) → Prop
  | _, [] => True
  | t, (i, b, w) :: l => w = t.take i ++ b ++ t.drop i ∧ gapRight (t.take i ++ b ++ t.drop i) l

theorem gapFold_spec (cap : Nat) : ∀ (l : List (Nat × List UInt8 × List UInt8)) (g : GapBuf), g.WF → g.capacity = cap → gapFits cap g.toVec l →
    (gapRight g.toVec l → ∃ g', l.foldlM (fun g x => do
      let g ← gapStep g x.1 x.2.1 x.2.2
      assertM (decide (g.len = x.2.2.length))
      pure g) g = (.ok g' : M GapBuf) ∧ g'.WF ∧ g'.toVec = gapFinal g.toVec l) ∧
    (¬ gapRight g.toVec l → l.foldlM (fun g x => do
      let g ← gapStep g x.1 x.2.1 x.2.2
      assertM (decide (g.len = x.2.2.length))
      pure g) g = (.error .panic : M GapBuf))
  | [], g, hw, _, _ => ⟨fun _ => ⟨g, rfl, hw, rfl⟩, fun h => absurd trivial h⟩
  | (i, b, w) :: l, g, hw, hc, hf => by
    obtain ⟨f1, f2, f3⟩ := hf
    obtain ⟨g1, h1, h2, h3, h4⟩ := (C38_insert_bytes g hw i f1 b).1 (by rw [hc]; exact f2)
    have hl := GapBuf.toVec_length g1 h2
    rw [List.foldlM_cons]
    simp only [gapStep, h1, unwrap, bind_ok]
    by_cases hr : w = g.toVec.take i ++ b ++ g.toVec.drop i
    · subst hr
      obtain ⟨i1, i2⟩ := gapFold_spec cap l g1 h2 (h3.trans hc) (by rw [h4]; exact f3)
      simp only [← h4, ← hl, decide_true, assertM, if_true, bind_ok, pure_ok]
      have hR : gapRight g.toVec ((i, b, g1.toVec) :: l) ↔ gapRight g1.toVec l := by rw [gapRight, ← h4]; simp
      rw [hR, gapFinal, ← h4]
      exact ⟨i1, i2⟩
    · refine ⟨fun h => absurd h.1 hr, fun _ => ?_⟩
      rw [h4, decide_eq_false (fun e => hr e.symm)]
      rfl

/-- `basic`: passes exactly if all expected values are right.  The assertion on the two halves needs a non-empty range: only then the gap is
moved to it. -/
theorem C82_gap_basic {cap : Nat} {ins : List (Nat × List UInt8 × List UInt8)} (hf : gapFits cap [] ins) {a b : Nat} (hab : a < b)
    (hb : b ≤ (gapFinal [] ins).length) (left right : List UInt8) :
    (gapRight [] ins ∧ left = (gapFinal [] ins).take a ∧ right = (gapFinal [] ins).drop b → gapBasic cap ins a b left right = .ok ()) ∧
    (¬ (gapRight [] ins ∧ left = (gapFinal [] ins).take a ∧ right = (gapFinal [] ins).drop b) →
      gapBasic cap ins a b left right = .error .panic) := by
  obtain ⟨n1, n2, n3, -⟩ := C38_new_len cap
  obtain ⟨s1, s2⟩ := gapFold_spec cap ins (GapBuf.new cap) n1 n3 (by rw [n2]; exact hf)
  rw [n2] at s1 s2
  generalize gapFinal [] ins = t at *
  rw [gapBasic]
  by_cases hr : gapRight [] ins
  · obtain ⟨g, h1, h2, h3⟩ := s1 hr
    have hl := GapBuf.toVec_length g h2
    rw [h1, bind_ok]
    obtain ⟨g1, e1, w1, e3, e4, e5, e6⟩ := GapBuf.shiftAt_spec g h2 b (by rw [← hl, h3]; exact hb)
    have hg : g.deleteB (.included a) (.excluded b) = .ok { g1 with gapStart := a, gapLen := g1.gapLen + (b - a) } := by
      rw [GapBuf.deleteB]
      simp only [PBound.start, PBound.stop, GapBuf.delete]
      rw [h3] at hl
      have m1 : min b g.len = b := by omega
      have m2 : min (min a g.len) b = a := by omega
      simp only [m1, m2]
      rw [if_neg (by omega), e1]
      rfl
    have h1l : g1.asBytes.1 = t.take b := by
      rw [← h3, ← e6]
      have hw : g1.gapStart + g1.gapLen ≤ g1.buffer.length := w1
      simp only [GapBuf.toVec, GapBuf.asBytes]
      rw [List.take_left' (by rw [List.length_take]; omega)]
    have h1r : g1.asBytes.2 = t.drop b := by
      rw [← h3, ← e6]
      have hw : g1.gapStart + g1.gapLen ≤ g1.buffer.length := w1
      simp only [GapBuf.toVec, GapBuf.asBytes]
      rw [List.drop_left' (by rw [List.length_take]; omega)]
    have hw : g1.gapStart + g1.gapLen ≤ g1.buffer.length := w1
    have hL : (⟨g1.buffer, a, g1.gapLen + (b - a)⟩ : GapBuf).asBytes.1 = t.take a := by
      have := congrArg (List.take a) h1l
      simp only [GapBuf.asBytes, List.take_take] at this
      rw [show min a g1.gapStart = a by omega, show min a b = a by omega] at this
      exact this
    have hR : (⟨g1.buffer, a, g1.gapLen + (b - a)⟩ : GapBuf).asBytes.2 = t.drop b := by
      rw [← h1r]
      simp only [GapBuf.asBytes]
      rw [show a + (g1.gapLen + (b - a)) = g1.gapStart + g1.gapLen by omega]
    have hlen : (⟨g1.buffer, a, g1.gapLen + (b - a)⟩ : GapBuf).len = (t.take a).length + (t.drop b).length := by
      rw [h3] at hl
      simp only [GapBuf.len, List.length_take, List.length_drop] at *
      omega
    have hV : (⟨g1.buffer, a, g1.gapLen + (b - a)⟩ : GapBuf).toVec = t.take a ++ t.drop b := by rw [GapBuf.toVec, hL, hR]
    simp only [hg, bind_ok, hL, hR, hlen, hV]
    constructor
    · rintro ⟨-, rfl, rfl⟩
      simp [assertM, bind_ok]
    · intro hn
      by_cases hx : (t.take a).length + (t.drop b).length = left.length + right.length
      · simp only [hx, decide_true, assertM, if_true, bind_ok]
        by_cases h1 : t.take a = left
        · have h2 : t.drop b ≠ right := fun h => hn ⟨hr, h1.symm, h.symm⟩
          simp only [h1, decide_true, if_true, bind_ok, decide_eq_false h2]
          rfl
        · simp only [decide_eq_false h1]
          rfl
      · simp only [decide_eq_false hx, assertM]
        rfl
  · rw [s2 hr]
    exact ⟨fun h => absurd h.1 hr, fun _ => rfl⟩

/-- `slice`: wherever the gap is. -/
theorem C82_gap_slice {cap : Nat} {bytes : List UInt8} (hc : bytes.length ≤ cap) {k a b : Nat} (hk : k ≤ bytes.length) (hab : a ≤ b)
    (hb : b ≤ bytes.length) (want : List UInt8) :
    gapSlice cap bytes k a b want = if want = (bytes.take b).drop a then .ok () else .error .panic := by
  obtain ⟨n1, n2, n3, -⟩ := C38_new_len cap
  obtain ⟨g, h1, h2, h3, h4⟩ := (C38_push_bytes _ n1 bytes).1 (by rw [n2, n3]; simpa using hc)
  rw [n2, List.nil_append] at h4
  have hl := GapBuf.toVec_length g h2
  obtain ⟨g1, e1, w1, -, -, -, e6⟩ := GapBuf.shiftAt_spec g h2 k (by rw [← hl, h4]; exact hk)
  rw [h4] at e6
  obtain ⟨s, s1, -, -, s4⟩ := C38_slice g1 w1 a b hab (by rw [e6]; exact hb)
  obtain ⟨g2, t1, -, -, t4⟩ := C38_slice_in_place g1 w1 a b hab (by rw [e6]; exact hb)
  rw [e6] at s4 t4
  simp only [gapSlice, h1, unwrap, bind_ok, e1, sliceB, PBound.start, PBound.stop, s1, s4, GapBuf.sliceMutB, t1, t4]
  by_cases hw : want = (bytes.take b).drop a
  · rw [if_pos hw, ← hw]
    simp [assertM, bind_ok]
  · rw [if_neg hw, decide_eq_false (fun e => hw e.symm)]
    rfl

/-! ## Ropes -/

/-- the rope is valid and has the text `cs` -/
structure Reads (cap : Nat) (r : Rope) (cs : List Char) : Prop where
  inv : RopeInv cap ⟨1, 4⟩ r
  text : r.text = utf8 cs

variable {cap : Nat} {r : Rope} {cs : List Char}

theorem reads_new : Reads cap Rope.new [] := ⟨(agree_new (cap := cap)).inv, (agree_new (cap := cap)).text⟩

theorem Reads.len (h : Reads cap r cs) : r.len = strLen cs := by rw [h.inv.len (Nat.le_refl 1), h.text, strLen_utf8]

theorem strLen_append (a b : List Char) : strLen (a ++ b) = strLen a + strLen b := by
  rw [← strLen_utf8, utf8_append, List.length_append, strLen_utf8, strLen_utf8]

theorem strLen_splice (cs x : List Char) (k : Nat) : strLen (cs.take k ++ x ++ cs.drop k) = strLen cs + strLen x := by
  have h := strLen_append (cs.take k) (cs.drop k)
  rw [List.take_append_drop] at h
  rw [strLen_append, strLen_append]
  omega

theorem strLen_cut (cs : List Char) {a b : Nat} (hab : a ≤ b) : strLen (cs.take a ++ cs.drop b) ≤ strLen cs := by
  have h := strLen_append (cs.take a) (cs.drop a)
  have h' := strLen_append ((cs.drop a).take (b - a)) ((cs.drop a).drop (b - a))
  rw [List.take_append_drop] at h h'
  rw [List.drop_drop, show a + (b - a) = b by omega] at h'
  rw [strLen_append]
  omega

theorem Reads.insert (hcap : 0 < cap) (h : Reads cap r cs) (k : Nat) (s : String) :
    ∃ r', r.insertStr cap (byteAt cs k) s = .ok r' ∧ Reads cap r' (cs.take k ++ s.toList ++ cs.drop k) := by
  obtain ⟨r', h1, h2, h3⟩ := C35_insert hcap (m := ⟨1, 4⟩) (by decide) h.inv (i := byteAt cs k) (by rw [h.text]; exact byteAt_le cs k) (utf8 s.toList)
  refine ⟨r', by rw [Rope.insertStr, utf8_str]; exact h1, h2, ?_⟩
  rw [h3, h.text, utf8_take, utf8_drop, utf8_append, utf8_append]

theorem Reads.delete (h : Reads cap r cs) (hs : strLen cs < 390626) {a b : Nat} (hab : byteAt cs a ≤ byteAt cs b) :
    ∃ r', r.deleteRange (byteAt cs a) (byteAt cs b) = .ok r' ∧ Reads cap r' (cs.take a ++ cs.drop b) := by
  obtain ⟨k, hk, hi⟩ := h.inv.low (by rw [h.text, strLen_utf8]; exact hs)
  obtain ⟨r', h1, h2, h3⟩ := C35_delete (m := ⟨1, 4⟩) (by decide) h.inv hi (byteAt cs a) (byteAt cs b) (.inl hk)
  refine ⟨r', h1, by split at h2 <;> exact h2, ?_⟩
  rw [h3, h.text, show max (byteAt cs a) (byteAt cs b) = byteAt cs b by omega, utf8_take, utf8_drop, utf8_append]

theorem Reads.bytes (h : Reads cap r cs) (hs : strLen cs < 390626) : r.toBytes = .ok (utf8 cs) := by
  obtain ⟨k, hk, hi⟩ := h.inv.low (by rw [h.text, strLen_utf8]; exact hs)
  have := (h.inv.shows (Nat.le_refl 1) fun _ => ⟨k, by omega, hi⟩).bytes
  rwa [h.text] at this

theorem ropeAssert_bytes (hb : r.toBytes = .ok (utf8 cs)) (want : List Char) :
    ropeAssert r want = if want = cs then .ok () else .error .panic := by
  have ht := ((C50_to_string hb).1 (String.ofList cs)).mpr (by rw [String.toList_ofList])
  rw [ropeAssert, ht, bind_ok]
  by_cases hw : want = cs
  · rw [if_pos hw, hw]; simp [assertM]
  · rw [if_neg hw, decide_eq_false]
    · rfl
    · intro e
      have := congrArg String.toList e
      simp only [String.toList_ofList] at this
      exact hw this.symm

theorem Reads.assert (h : Reads cap r cs) (hs : strLen cs < 390626) (want : List Char) :
    ropeAssert r want = if want = cs then .ok () else .error .panic := ropeAssert_bytes (h.bytes hs) want

theorem Reads.testIndex (h : Reads cap r cs) (hs : strLen cs < 390626) : testIndex r = .ok () := by
  obtain ⟨k, hk, hi⟩ := h.inv.low (by rw [h.text, strLen_utf8]; exact hs)
  exact C60_test_index (Nat.le_refl 1) hi (by omega)

theorem byteAt_zero (cs : List Char) : byteAt cs 0 = 0 := rfl

theorem byteAt_length (cs : List Char) : byteAt cs cs.length = strLen cs := by rw [byteAt, List.take_length, strLen_utf8]

/-- `test`: for all strings of at most 390625 bytes together; `x` is inserted before the `i`th character, then the characters from `a` to
`b`, the first `c`, and all are deleted.  It passes exactly if the two expected texts are right. -/
theorem C82_rope_basic (hcap : 0 < cap) (s x : String) {i a b c : Nat} (hs : strLen s.toList + strLen x.toList < 390626) (hab : a ≤ b)
    {t t1 : List Char} (ht : t = s.toList.take i ++ x.toList ++ s.toList.drop i) (ht1 : t1 = t.take a ++ t.drop b) (w1 w2 : List Char) :
    ropeBasic cap s x (byteAt s.toList i) (byteAt t a) (byteAt t b) (byteAt t1 c) w1 w2 =
      if w1 = t1 ∧ w2 = t1.drop c then .ok () else .error .panic := by
  obtain ⟨r1, h1, r1s⟩ := reads_new.insert hcap 0 s
  have r1s : Reads cap r1 s.toList := by simpa using r1s
  have h1 : Rope.new.insertStr cap 0 s = .ok r1 := h1
  obtain ⟨r2, h2, r2s⟩ := r1s.insert hcap i x
  rw [← ht] at r2s
  have l2 : strLen t = strLen s.toList + strLen x.toList := by rw [ht, strLen_splice]
  obtain ⟨r3, h3, r3s⟩ := r2s.delete (by omega) (byteAt_mono t hab)
  rw [← ht1] at r3s
  have l3 : strLen t1 ≤ strLen t := by rw [ht1]; exact strLen_cut t hab
  obtain ⟨r4, h4, r4s⟩ := r3s.delete (by omega) (byteAt_mono t1 (Nat.zero_le c))
  rw [List.take_zero, List.nil_append] at r4s
  have l4 : strLen (t1.drop c) ≤ strLen t1 := by simpa using strLen_cut t1 (Nat.zero_le c)
  obtain ⟨r5, h5, r5s⟩ := r4s.delete (by omega) (byteAt_mono (t1.drop c) (Nat.zero_le (t1.drop c).length))
  rw [byteAt_zero, byteAt_length, List.take_zero, List.nil_append, List.drop_length] at *
  have hn : strLen ([] : List Char) = 0 := rfl
  simp only [ropeBasic, h1, bind_ok, r1s.len, decide_true, assertM, if_true, h2, r2s.testIndex (by omega), r2s.len, l2, Rope.deleteRangeB,
    PBound.start, PBound.stop, h3, r3s.assert (by omega)]
  by_cases e1 : w1 = t1
  · simp only [e1, if_true, bind_ok, h4, r4s.assert (by omega)]
    by_cases e2 : w2 = t1.drop c
    · simp only [e2, if_true, bind_ok, r4s.len, h5, r5s.assert (show strLen [] < 390626 by rw [hn]; omega), r5s.len, hn, decide_true, and_self]
    · rw [if_neg e2, if_neg fun h => e2 h.2]
      rfl
  · rw [if_neg e1, if_neg fun h => e1 h.1]
    rfl

/-- `test_delete_middle`. -/
theorem C82_delete_middle (hcap : 0 < cap) (s : String) {a b : Nat} (hs : strLen s.toList < 390626) (hab : a ≤ b) (want : List Char) :
    ropeDeleteMiddle cap s (byteAt s.toList a) (byteAt s.toList b) want =
      if want = s.toList.take a ++ s.toList.drop b then .ok () else .error .panic := by
  obtain ⟨r1, h1, r1s⟩ := reads_new.insert hcap 0 s
  have r1s : Reads cap r1 s.toList := by simpa using r1s
  have h1 : Rope.new.insertStr cap 0 s = .ok r1 := h1
  obtain ⟨r2, h2, r2s⟩ := r1s.delete hs (byteAt_mono s.toList hab)
  have l2 := strLen_cut s.toList hab
  simp only [ropeDeleteMiddle, h1, bind_ok, Rope.deleteRangeB, PBound.start, PBound.stop, h2, r2s.assert (show _ < 390626 by omega)]

/-- the text after inserting each string before the given character -/
def insertsText : List Char → List (Nat × String) → List Char
  | t, [] => t
  | t, (k, s) :: l => insertsText (t.take k ++ s.toList ++ t.drop k) l

/-- the same inserts with byte positions -/
def insertsBytes : List Char → List (Nat × String) → List (Nat × String)
  | _, [] => []
  | t, (k, s) :: l => (byteAt t k, s) :: insertsBytes (t.take k ++ s.toList ++ t.drop k) l

theorem Reads.inserts (hcap : 0 < cap) : ∀ (l : List (Nat × String)) {r : Rope} {cs : List Char}, Reads cap r cs →
    ∃ r', ropeInserts cap r (insertsBytes cs l) = .ok r' ∧ Reads cap r' (insertsText cs l)
  | [], r, cs, h => ⟨r, rfl, h⟩
  | (k, s) :: l, r, cs, h => by
    obtain ⟨r1, h1, h2⟩ := h.insert hcap k s
    obtain ⟨r2, h3, h4⟩ := Reads.inserts hcap l h2
    exact ⟨r2, by rw [insertsBytes, ropeInserts, h1, bind_ok, h3], h4⟩

/-- `test_insert_repeatedly`, for any list of inserts. -/
theorem C82_insert_repeatedly (hcap : 0 < cap) (l : List (Nat × String)) (hs : strLen (insertsText [] l) < 390626) (want : List Char) :
    ropeInsertRepeatedly cap (insertsBytes [] l) want = if want = insertsText [] l then .ok () else .error .panic := by
  obtain ⟨r, h1, h2⟩ := reads_new.inserts hcap l
  simp only [ropeInsertRepeatedly, h1, bind_ok, h2.testIndex hs, h2.assert hs]

/-- `test_update` (ignored in the crate) can never pass: `update_in_place` is `todo!()`. -/
theorem C82_update (hcap : 0 < cap) (l : List (Nat × String)) (i : Nat) (s : String) (want : List Char) :
    ropeUpdateTest cap (insertsBytes [] l) i s want = .error .panic := by
  obtain ⟨r, h1, -⟩ := reads_new.inserts hcap l
  rw [ropeUpdateTest, h1, bind_ok, updateInPlace]
  rfl

/-- `test_clear`: passes for all strings (`t` of at most 390625 bytes), because the only insert before `clear()` is into an empty rope, which
caches no cursor. -/
theorem C82_clear (hcap : 0 < cap) (s t : String) (ht : strLen t.toList < 390626) : ropeClearTest cap s t = .ok () := by
  obtain ⟨u, h1, h2, h3, -, -⟩ := clear_insert hcap (m := ⟨1, 4⟩) (by decide) none (utf8 s.toList)
  obtain ⟨v, k1, k2, k3, -, -⟩ := clear_insert hcap (m := ⟨1, 4⟩) (by decide) none (utf8 t.toList)
  have h1 : Rope.new.insertStr cap 0 s = .ok ⟨u, none⟩ := by rw [Rope.insertStr, utf8_str]; exact h1
  have k1 : (⟨u, none⟩ : Rope).clear.insertStr cap 0 t = .ok ⟨v, none⟩ := by rw [Rope.insertStr, utf8_str]; exact k1
  have hu : Reads cap ⟨u, none⟩ s.toList := ⟨h2, h3⟩
  have hv : Reads cap ⟨v, none⟩ t.toList := ⟨k2, k3⟩
  have c1 : (⟨u, none⟩ : Rope).clear.len = 0 := rfl
  have c2 : ropeAssert (⟨u, none⟩ : Rope).clear [] = .ok () := by
    rw [ropeAssert_bytes (cs := []) rfl, if_pos rfl]
  simp only [ropeClearTest, h1, bind_ok, hu.len, decide_true, assertM, if_true, c1, c2, k1, hv.assert ht]

/-- Two inserts before `clear()` and two after it, and the right expectation fails (capacity 4): the defect of C36. -/
theorem C82_clear_more_fails :
    ropeClearTest' 4 [(0, "12345678"), (7, "9")] [(0, "1234"), (4, "5")] "12345".toList = .error .panic ∧
    insertsText [] [(0, "1234"), (4, "5")] = "12345".toList := by
  refine ⟨?_, by decide⟩
  rfl

theorem narrow_insert {s : List Char} (hc : Narrow cs) (hs : Narrow s) {p : Nat} (hp : p ≤ cs.length) :
    strInsert cs p s = .ok (cs.take p ++ s ++ cs.drop p) ∧ Narrow (cs.take p ++ s ++ cs.drop p) :=
  ⟨by simp only [strInsert, hc.charIdx hp, unwrap, bind_ok, pure, Except.pure], ((hc.take p).append hs).append (hc.drop p)⟩

theorem insertManyLoop_ok (hcap : 0 < cap) {s : String} (hn : Narrow s.toList) (h0 : s.toList ≠ []) : ∀ (n i : Nat) (r : Rope) (cs : List Char), Reads cap r cs →
    Narrow cs → cs.length = i * s.toList.length → (i + n) * s.toList.length < 390626 → ∃ r' cs', ropeInsertManyLoop cap s n i r cs = .ok (r', cs')
  | 0, i, r, cs, h, hc, hl, hs => ⟨r, cs, rfl⟩
  | n + 1, i, r, cs, h, hc, hl, hs => by
    have hp : 0 < s.toList.length := List.length_pos_iff.mpr h0
    have hi : i ≤ cs.length := by rw [hl]; exact Nat.le_mul_of_pos_right i hp
    obtain ⟨e1, e2⟩ := narrow_insert hc hn hi
    obtain ⟨r1, h1, h2⟩ := h.insert hcap i s
    rw [hc.byteAt hi] at h1
    have hl1 : (cs.take i ++ s.toList ++ cs.drop i).length = (i + 1) * s.toList.length := by
      rw [Nat.add_mul, Nat.one_mul, ← hl]
      simp only [List.length_append, List.length_take, List.length_drop]
      omega
    have hle : (i + 1) * s.toList.length ≤ (i + (n + 1)) * s.toList.length := Nat.mul_le_mul_right _ (by omega)
    have ha := h2.assert (by rw [e2.strLen, hl1]; omega) (cs.take i ++ s.toList ++ cs.drop i)
    rw [if_pos rfl] at ha
    obtain ⟨r', cs', k⟩ := insertManyLoop_ok hcap hn h0 n (i + 1) r1 _ h2 e2 hl1 (by rw [show i + 1 + n = i + (n + 1) by omega]; exact hs)
    exact ⟨r', cs', by simp only [ropeInsertManyLoop, e1, bind_ok, h1, ha, k]⟩

/-- `test_insert_many`: passes for every non-empty ASCII string and every number of rounds up to 390625 bytes in all. -/
theorem C82_insert_many (hcap : 0 < cap) {s : String} (hn : ∀ c ∈ s.toList, c.utf8Size = 1) (h0 : s ≠ "") {n : Nat} (hs : n * s.toList.length < 390626) :
    ropeInsertMany cap s n = .ok () := by
  obtain ⟨r, cs, h⟩ := insertManyLoop_ok hcap hn (fun h => h0 (String.toList_eq_nil_iff.mp h)) n 0 _ _ reads_new (fun c hc => by cases hc) (by simp) (by simpa using hs)
  rw [ropeInsertMany, h]
  rfl

/-- The empty string is out of range in the second round. -/
theorem C82_insert_many_empty (hcap : 0 < cap) (n : Nat) : ropeInsertMany cap "" n = if n ≤ 1 then .ok () else .error .panic := by
  match n with
  | 0 => rfl
  | n + 1 =>
    obtain ⟨r, h1, h2⟩ := reads_new.insert hcap 0 ""
    have h2 : Reads cap r [] := h2
    have h1 : Rope.new.insertStr cap 0 "" = .ok r := h1
    have ha := h2.assert (by decide) []
    rw [if_pos rfl] at ha
    have e : strInsert [] 0 "".toList = .ok [] := rfl
    simp only [ropeInsertMany, ropeInsertManyLoop, e, bind_ok, h1, ha]
    cases n with
    | zero => rfl
    | succ n =>
      rw [if_neg (by omega)]
      rfl

/-- the text with `t` inserted in the middle -/
def midInsert (t x : List UInt8) : List UInt8 := x.take (x.length / 2) ++ t ++ x.drop (x.length / 2)

theorem repeat_comm {α : Type} (f : α → α) : ∀ (n : Nat) (x : α), f (Nat.repeat f n x) = Nat.repeat f n (f x)
  | 0, _ => rfl
  | n + 1, x => congrArg f (repeat_comm f n x)

theorem repeatLoop_ok (hcap : 0 < cap) (t : String) : ∀ (n : Nat) (r : Rope), RopeInv cap ⟨1, 4⟩ r →
    ∃ r', ropeRepeatLoop cap t n r = .ok r' ∧ RopeInv cap ⟨1, 4⟩ r' ∧ r'.text = Nat.repeat (midInsert (utf8 t.toList)) n r.text
  | 0, r, h => ⟨r, rfl, h, rfl⟩
  | n + 1, r, h => by
    have hl := h.len (Nat.le_refl 1)
    obtain ⟨r1, h1, h2, h3⟩ := C35_insert hcap (m := ⟨1, 4⟩) (by decide) h (i := r.len / 2) (by omega) (utf8 t.toList)
    have h1 : r.insertStr cap (r.len / 2) t = .ok r1 := by rw [Rope.insertStr, utf8_str]; exact h1
    obtain ⟨r2, k1, k2, k3⟩ := repeatLoop_ok hcap t n r1 h2
    refine ⟨r2, by rw [ropeRepeatLoop, h1, bind_ok, k1], k2, ?_⟩
    rw [k3, h3, hl]
    exact (repeat_comm _ n _).symm

theorem midInsert_length (t x : List UInt8) : (midInsert t x).length = x.length + t.length := by
  simp only [midInsert, List.length_append, List.length_take, List.length_drop]
  omega

theorem midInsert_repeat (t x : List UInt8) : ∀ n, (Nat.repeat (midInsert t) n x).length = x.length + n * t.length
  | 0 => by simp [Nat.repeat]
  | n + 1 => by rw [Nat.repeat, midInsert_length, midInsert_repeat t x n, Nat.add_mul, Nat.one_mul, Nat.add_assoc]

/-- `test_repeat_insert`: no panic for any strings and any number of rounds, and the text is as it should be. -/
theorem C82_repeat_insert (hcap : 0 < cap) (s t : String) (n : Nat) :
    ∃ r, ropeRepeat cap s t n = .ok r ∧ r.len = strLen s.toList + n * strLen t.toList ∧
      (strLen s.toList + n * strLen t.toList < 390626 → r.toBytes = .ok (Nat.repeat (midInsert (utf8 t.toList)) n (utf8 s.toList))) := by
  obtain ⟨r1, h1, r1s⟩ := reads_new.insert hcap 0 s
  have r1s : Reads cap r1 s.toList := by simpa using r1s
  have h1 : Rope.new.insertStr cap 0 s = .ok r1 := h1
  obtain ⟨r2, k1, k2, k3⟩ := repeatLoop_ok hcap t n r1 r1s.inv
  have hl : r2.text.length = strLen s.toList + n * strLen t.toList := by rw [k3, midInsert_repeat, r1s.text, strLen_utf8, strLen_utf8]
  refine ⟨r2, by rw [ropeRepeat, h1, bind_ok, k1], by rw [k2.len (Nat.le_refl 1), hl], fun hs => ?_⟩
  obtain ⟨k, hk, hi⟩ := k2.low (by rw [hl]; exact hs)
  have := (k2.shows (Nat.le_refl 1) fun _ => ⟨k, by omega, hi⟩).bytes
  rw [this, k3, r1s.text]

theorem benLoop_ok (hcap : 0 < cap) : ∀ (as : List RopeAction) (r : Rope) (cs : List Char), Agree cap r cs → cs.length + 3 * as.length < 390626 →
    benLoop cap r cs as = .ok ()
  | [], r, cs, ag, hs => ag.assert (by simpa using hs)
  | a :: as, r, cs, ag, hs => by
    rw [List.length_cons] at hs
    obtain ⟨r', cs', h1, h2, h3, h4⟩ := benchAct_ok hcap ag a (.inl (by omega))
    have ih := benLoop_ok hcap as r' cs' h3 (by omega)
    have hl : strLen cs' = r'.len := by rw [h3.inv.len (Nat.le_refl 1), h3.len, h3.narrow.strLen]
    have hrl : r.len = strLen cs := by rw [ag.inv.len (Nat.le_refl 1), ag.len, ag.narrow.strLen]
    cases a with
    | insert pos content =>
      rw [benchAct] at h1
      rw [rawAct, ← hrl] at h2
      simp only [benLoop, h1, h2, bind_ok, pure_ok, hl, decide_true, assertM, if_true, ih]
    | delete pos len =>
      rw [benchAct] at h1
      rw [rawAct, ← hrl] at h2
      simp only [benLoop, h1, h2, bind_ok, pure_ok, hl, decide_true, assertM, if_true, ih]

/-- `ben`: passes for every list of at most 130208 actions (in the code: 1000 pseudo-random ones). -/
theorem C82_ben (hcap : 0 < cap) (as : List RopeAction) (hs : as.length ≤ 130208) : benLoop cap Rope.new [] as = .ok () :=
  benLoop_ok hcap as _ _ agree_new (by rw [List.length_nil]; omega)

/-! ## Ordered sets -/

/-- `test_delete`: passes for all keys `k` and `k'`, so also if the deleted key is not the inserted one, when the length should stay 1. -/
theorem C82_test_delete {K : Type} [Ord K] [Std.TransOrd K] (k k' : K) : ordDeleteTest k k' = .ok () := by
  obtain ⟨m1, h1, h2, h3⟩ := OrdMap.insert_spec (OrdMap.new_ok (K := K) (V := Unit)) k ()
  rw [OrdMap.new_assoc] at h3
  have h3 : m1.assoc = [(k, ())] := h3
  have h1 : (OrdSet.new : OrdSet K).insert k = .ok ⟨m1⟩ := by
    rw [OrdSet.insert]
    show (OrdMap.insert OrdMap.new k () >>= _) = _
    rw [h1]; rfl
  rcases OrdMap.delete_spec h2 k' with ⟨h, -⟩ | ⟨a, e, b, m2, k1, -, -, k4, k5, k6, -⟩
  · rw [h3] at h; cases h
  · have hlen := congrArg List.length k1
    rw [h3] at hlen
    simp only [List.length_append, List.length_cons, List.length_nil] at hlen
    have h0 : m2.len = 0 := by
      rw [k5.len, k6, List.length_append]; omega
    simp only [ordDeleteTest, h1, bind_ok, OrdSet.delete, k4, pure_ok, h0, decide_true, assertM, if_true]

theorem depth_nonempty {K V : Type} [Ord K] {m : OrdMap K V} (ok : m.Ok) (hne : m.assoc ≠ []) : ∃ h, depth m.tree = .ok h := by
  obtain ⟨h, hi⟩ := ok.tree
  have ne := hi.ne (by decide)
  have habs := abs_nil hi
  obtain ⟨⟨lvl, g⟩, -⟩ := id hi
  refine ⟨h, depth_spec g.wf ne fun e => hne ?_⟩
  rw [OrdMap.assoc, habs.mpr e]
  rfl

theorem asInsert_ne_nil {K V : Type} [Ord K] (k : K) (v : V) (l : List (K × V)) : asInsert k v l ≠ [] := by
  cases l with
  | nil => simp [asInsert]
  | cons a l =>
    rw [asInsert]
    split <;> simp

theorem asInsert_length {K V : Type} [Ord K] (k : K) (v : V) : ∀ l : List (K × V), (asInsert k v l).length ≤ l.length + 1
  | [] => Nat.le_refl _
  | (a, b) :: l => by
    have := asInsert_length k v l
    rw [asInsert]
    split <;> simp only [List.length_cons] <;> omega

theorem depthLoop_ok : ∀ (n i : Nat) (t : OrdSet UInt64), t.map.Ok →
    ∃ t', depthLoop n i t = .ok t' ∧ t'.map.Ok ∧ t'.map.len ≤ t.map.len + n ∧ (n = 0 ∧ t' = t ∨ t'.map.assoc ≠ [])
  | 0, i, t, h => ⟨t, rfl, h, Nat.le_refl _, .inl ⟨rfl, rfl⟩⟩
  | n + 1, i, t, h => by
    obtain ⟨m1, h1, h2, h3⟩ := OrdMap.insert_spec h (UInt64.ofNat i) ()
    have hne : m1.assoc ≠ [] := by rw [h3]; exact asInsert_ne_nil (K := UInt64) (V := Unit) _ _ _
    obtain ⟨d, hd⟩ := depth_nonempty (K := UInt64) (V := Unit) h2 hne
    have hins : t.insert (UInt64.ofNat i) = .ok ⟨m1⟩ := by rw [OrdSet.insert, h1]; rfl
    obtain ⟨t', k1, k2, k3, k4⟩ := depthLoop_ok n (i + 1) ⟨m1⟩ h2
    refine ⟨t', ?_, k2, ?_, .inr ?_⟩
    · simp only [depthLoop, hins, bind_ok, hd, pure_ok]
      split <;> simp only [bind_ok, k1]
    · have hl : m1.len ≤ t.map.len + 1 := by rw [h2.len, h.len, h3]; exact asInsert_length ..
      have k3 : t'.map.len ≤ m1.len + n := k3
      omega
    · rcases k4 with ⟨-, rfl⟩ | k4
      · exact hne
      · exact k4

/-- `depth_test`: passes for every number of keys below 20155392 (in the code: 2100000). -/
theorem C82_depth_test {n : Nat} (hn : n < 20155392) : depthTest n = .ok () := by
  obtain ⟨t, h1, h2, h3, h4⟩ := depthLoop_ok n 0 OrdSet.new (OrdMap.new_ok (K := UInt64) (V := Unit))
  rw [depthTest, h1, bind_ok]
  rcases h4 with ⟨-, rfl⟩ | h4
  · rfl
  · have h3 : t.map.len ≤ 0 + n := h3
    exact check_nonempty h2 (by omega) h4

/-! ## The range map -/

theorem rangeAssert_eq {s : RangeMap} {n N : Nat} {f : Nat → Option Int} (h : Holds s n N f) (i : Nat) (x : Option Int) :
    rangeAssert s i x = if x = f i then .ok () else .error .panic := by
  rw [rangeAssert, RangeMap.get_spec (by decide) h.inv, bind_ok, h.get]
  by_cases hx : x = f i
  · rw [if_pos hx, hx]; simp [assertM]
  · rw [if_neg hx, decide_eq_false fun e => hx e.symm]; rfl

theorem rangeAsserts_iff {s : RangeMap} {n N : Nat} {f : Nat → Option Int} (h : Holds s n N f) (ps : List (Nat × Option Int)) :
    checkAll (fun p => rangeAssert s p.1 p.2) ps = .ok () ↔ ∀ p ∈ ps, p.2 = f p.1 := by
  constructor
  · intro hc p hp
    have := checkAll_inv hc p hp
    rw [rangeAssert_eq h] at this
    split at this
    · assumption
    · cases this
  · intro hc
    exact checkAll_ok fun p hp => by rw [rangeAssert_eq h, if_pos (hc p hp)]

/-- `basic` of the range map: for all non-empty ranges up to 781000, overlapping or not, all values and asserted positions. -/
theorem C82_range_basic {h1 h2 : HashOrd RElem} (p1 : ∀ l, (h1.idx l).Perm l) (p2 : ∀ l, (h2.idx l).Perm l) {a b c d : Nat} (hab : a ≤ b) (h0 : 0 < b)
    (hb : b ≤ 781000) (hcd : c ≤ d) (hd : d ≤ 781000) (v w : Int) (ps qs : List (Nat × Option Int)) :
    rangeBasicTest h1 h2 a b c d v w ps qs = .ok () ↔
      (∀ p ∈ ps, p.2 = if a ≤ p.1 ∧ p.1 < b then some v else none) ∧
      (∀ p ∈ qs, p.2 = if c ≤ p.1 ∧ p.1 < d then some w else if a ≤ p.1 ∧ p.1 < b then some v else none) := by
  obtain ⟨s, e1, s1⟩ := Holds.new.insert (by omega) hab hb (.inl h0) p1 v
  obtain ⟨s', e2, s2⟩ := s1.insert (by omega) hcd hd (.inr (by omega)) p2 w
  rw [rangeBasicTest, e1, bind_ok]
  constructor
  · intro h
    obtain ⟨_, i1, i2⟩ := bind_inv h
    rw [e2, bind_ok] at i2
    exact ⟨(rangeAsserts_iff s1 ps).mp i1, (rangeAsserts_iff s2 qs).mp i2⟩
  · rintro ⟨i1, i2⟩
    rw [(rangeAsserts_iff s1 ps).mpr i1, bind_ok, e2, bind_ok]
    exact (rangeAsserts_iff s2 qs).mpr i2

/-! ## The tests as they are in the crate -/

example : gapBasic 12 [(0, [3, 8], [3, 8]), (1, [4, 5, 6], [3, 4, 5, 6, 8]), (4, [7], [3, 4, 5, 6, 7, 8]), (0, [1, 2, 9, 9], [1, 2, 9, 9, 3, 4, 5, 6, 7, 8])]
    2 4 [1, 2] [3, 4, 5, 6, 7, 8] = .ok () :=
  (C82_gap_basic (by simp [gapFits]) (by decide) (by decide) _ _).1 ⟨by simp [gapRight], rfl, rfl⟩

example : gapSlice 12 [0, 1, 2, 3, 4, 5, 6, 7] 5 2 5 [2, 3, 4] = .ok () := by
  rw [C82_gap_slice (by decide) (by decide) (by decide) (by decide)]
  rfl

example : ropeBasic 12 "123" "x" 1 2 4 1 ['1', 'x'] ['x'] = .ok () :=
  C82_rope_basic (cap := 12) (by decide) "123" "x" (i := 1) (a := 2) (b := 4) (c := 1) (by decide) (by decide) rfl rfl ['1', 'x'] ['x']

example : ropeDeleteMiddle 12 "135" 1 2 ['1', '5'] = .ok () := C82_delete_middle (cap := 12) (by decide) "135" (a := 1) (b := 2) (by decide) (by decide) _

/-- with letters of two bytes -/
example : ropeDeleteMiddle 12 "äöü" 2 4 ['ä', 'ö'] = .error .panic := C82_delete_middle (cap := 12) (by decide) "äöü" (a := 1) (b := 2) (by decide) (by decide) _

example : ropeInsertRepeatedly 12 [(0, "123"), (1, "x"), (2, "y"), (3, "z")] "1xyz23".toList = .ok () :=
  C82_insert_repeatedly (cap := 12) (by decide) [(0, "123"), (1, "x"), (2, "y"), (3, "z")] (by decide) _

example : ropeClearTest 12 "123" "kkk" = .ok () := C82_clear (by decide) "123" "kkk" (by decide)

example : ropeInsertMany 12 "_12345678_" 100 = .ok () := C82_insert_many (by decide) (by decide) (by decide) (by decide)

example : ∃ r, ropeRepeat 12 "123" "k" 10000 = .ok r ∧ r.len = 10003 := by
  obtain ⟨r, h1, h2, -⟩ := C82_repeat_insert (cap := 12) (by decide) "123" "k" 10000
  exact ⟨r, h1, h2⟩

example : benLoop 12 Rope.new [] [.insert 3 200, .insert 1 7, .delete 1 2] = .ok () := C82_ben (by decide) _ (by decide)

example : ordDeleteTest (12 : UInt64) 12 = .ok () ∧ ordDeleteTest (12 : UInt64) 13 = .ok () := ⟨C82_test_delete .., C82_test_delete ..⟩

example : depthTest 2100000 = .ok () := C82_depth_test (by decide)

example : rangeBasicTest ⟨List.reverse, id, id⟩ ⟨List.reverse, id, id⟩ 1 10 2 8 0 1 [(0, none), (7, some 0), (8, some 0), (9, some 0), (10, none)]
    [(1, some 0), (2, some 1), (7, some 1), (8, some 0), (9, some 0), (10, none)] = .ok () :=
  (C82_range_basic (fun l => List.reverse_perm l) (fun l => List.reverse_perm l) (by decide) (by decide) (by decide) (by decide) (by decide) 0 1 _ _).mpr ⟨by decide, by decide⟩

example : ropeUpdateTest 12 (insertsBytes [] [(0, "123"), (1, "x")]) 2 "y" "1xy23".toList = .error .panic := C82_update (by decide) _ 2 "y" _
example : ropeInsertMany 12 "" 2 = .error .panic := C82_insert_many_empty (cap := 12) (by decide) 2

end GB

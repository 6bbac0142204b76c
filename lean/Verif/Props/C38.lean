import Verif.Proof.GapBuffer

/-!
# C38: `GapBuffer` behaves as a bounded byte list

Specification: a gap buffer denotes the byte list `toVec` (what `to_vec()` returns); its operations are
the list operations `take`/`drop`/`++`, and they fail exactly when the capacity would be exceeded.
`GapBuf.WF g` says that the gap lies inside the array; it holds initially and is preserved.
-/

namespace GB
open GapBuf

/-- A buffer with the gap in the middle, used below to show that the hypotheses are satisfiable:
text `[1,2,3]`, capacity 6, gap at 1. -/
def gapSample : GapBuf := ⟨[1, 9, 9, 9, 2, 3], 1, 3⟩

/-- `new()` is the empty list with the whole capacity free; `len` is the list length. -/
theorem C38_new_len (cap : Nat) :
    (new cap).WF ∧ (new cap).toVec = [] ∧ (new cap).capacity = cap ∧
    ∀ g : GapBuf, g.WF → g.len = g.toVec.length ∧ g.len ≤ g.capacity ∧
      (g.canRemove = true ↔ g.toVec = []) := by
  refine ⟨new_wf cap, new_toVec cap, new_capacity cap, fun g h => ⟨(toVec_length g h).symm, len_le g, ?_⟩⟩
  rw [canRemove, decide_eq_true_eq, ← toVec_length g h, List.length_eq_zero_iff]

/-- `insert_bytes(i, b)` splices `b` at `i` when it fits, and otherwise reports `Err`
(the model returns no new state, i.e. the buffer is unchanged). -/
theorem C38_insert_bytes (g : GapBuf) (h : g.WF) (i : Nat) (hi : i ≤ g.toVec.length) (b : List UInt8) :
    (g.toVec.length + b.length ≤ g.capacity →
      ∃ g', g.insertBytes i b = .ok (some g') ∧ g'.WF ∧ g'.capacity = g.capacity ∧
        g'.toVec = g.toVec.take i ++ b ++ g.toVec.drop i) ∧
    (g.capacity < g.toVec.length + b.length → g.insertBytes i b = .ok none) := by
  rw [toVec_length g h] at *
  exact ⟨insertBytes_spec g h i hi b, insertBytes_full g h i b⟩

/-- `push_bytes(b)` appends `b` when it fits, otherwise `Err`. -/
theorem C38_push_bytes (g : GapBuf) (h : g.WF) (b : List UInt8) :
    (g.toVec.length + b.length ≤ g.capacity →
      ∃ g', g.pushBytes b = .ok (some g') ∧ g'.WF ∧ g'.capacity = g.capacity ∧
        g'.toVec = g.toVec ++ b) ∧
    (g.capacity < g.toVec.length + b.length → g.pushBytes b = .ok none) := by
  rw [toVec_length g h] at *
  exact ⟨pushBytes_spec g h b, insertBytes_full g h _ b⟩

/-- `delete(a..b)` removes the positions `a ≤ k < b` (clamped to the length) and nothing else. -/
theorem C38_delete (g : GapBuf) (h : g.WF) (a b : Nat) :
    ∃ g', g.delete a b = .ok g' ∧ g'.WF ∧ g'.capacity = g.capacity ∧
      g'.toVec = g.toVec.take (min a b) ++ g.toVec.drop b :=
  delete_spec g h a b

/-- `split(i)` keeps the first `i` bytes and returns the others. -/
theorem C38_split (g : GapBuf) (h : g.WF) (i : Nat) (hi : i ≤ g.toVec.length) :
    ∃ l r, g.split i = .ok (l, r) ∧ l.WF ∧ r.WF ∧ l.capacity = g.capacity ∧ r.capacity = g.capacity ∧
      l.toVec = g.toVec.take i ∧ r.toVec = g.toVec.drop i :=
  split_spec g h i (by rw [← toVec_length g h]; exact hi)

/-- `_slice(a..b)` is the sub-list. -/
theorem C38_slice (g : GapBuf) (h : g.WF) (a b : Nat) (hab : a ≤ b) (hb : b ≤ g.toVec.length) :
    ∃ g', g.slice a b = .ok g' ∧ g'.WF ∧ g'.capacity = g.capacity ∧
      g'.toVec = (g.toVec.take b).drop a := by
  have hl := toVec_length g h
  have hcap := len_le g
  have has := asBytes_length g h
  have htv : g.toVec = g.asBytes.1 ++ g.asBytes.2 := rfl
  simp only [slice, GapBuf.vslice]
  rw [hl] at hb
  have key : ∀ gb : GapBuf, gb.WF → gb.capacity = g.capacity →
      gb.toVec = ((g.asBytes.1).take b).drop a →
      ∃ g', (if g.asBytes.1.length < b then (do
        let p ← (if a - g.asBytes.1.length ≤ b - g.asBytes.1.length ∧
            b - g.asBytes.1.length ≤ g.asBytes.2.length then
          Except.ok (List.drop (a - g.asBytes.1.length) (List.take (b - g.asBytes.1.length) g.asBytes.2))
          else Except.error Err.panic : M (List UInt8))
        let __do_lift ← gb.pushBytes p
        unwrap __do_lift : M GapBuf) else pure gb) = .ok g' ∧ g'.WF ∧ g'.capacity = g.capacity ∧
        g'.toVec = (g.toVec.take b).drop a := by
    intro gb w c t
    split
    · next hlt =>
      rw [if_pos (by omega), bind_ok]
      have hgl := toVec_length gb w
      have h1 : gb.toVec.length = g.asBytes.1.length - a := by
        rw [t]; simp; omega
      obtain ⟨g', e, w', c', t'⟩ := pushBytes_spec gb w
        (List.drop (a - g.asBytes.1.length) (List.take (b - g.asBytes.1.length) g.asBytes.2))
        (by simp only [List.length_drop, List.length_take]; omega)
      refine ⟨g', by rw [e]; rfl, w', by omega, ?_⟩
      rw [t', t, htv, List.take_append, List.drop_append]
      congr 1
      congr 1
      simp only [List.length_take]
      omega
    · next hlt =>
      refine ⟨gb, rfl, w, c, ?_⟩
      rw [t, htv, List.take_append_of_le_length (by omega)]
  have key : ∀ gb : GapBuf, gb.WF → gb.capacity = g.capacity →
      gb.toVec = ((g.asBytes.1).take b).drop a →
      ∃ g', (do
        let gb' ← (if g.asBytes.1.length < b then (do
          let p ← (if a - g.asBytes.1.length ≤ b - g.asBytes.1.length ∧
              b - g.asBytes.1.length ≤ g.asBytes.2.length then
            Except.ok (List.drop (a - g.asBytes.1.length) (List.take (b - g.asBytes.1.length) g.asBytes.2))
            else Except.error Err.panic : M (List UInt8))
          let __do_lift ← gb.pushBytes p
          unwrap __do_lift : M GapBuf) else pure gb : M GapBuf)
        assertM (decide (a ≤ b ∧ gb'.len = b - a))
        pure gb' : M GapBuf) = .ok g' ∧ g'.WF ∧ g'.capacity = g.capacity ∧
        g'.toVec = (g.toVec.take b).drop a := by
    intro gb w c t
    obtain ⟨g', e, w', c', t'⟩ := key gb w c t
    have hlen : g'.len = b - a := by
      rw [← toVec_length g' w', t']; simp; omega
    exact ⟨g', by rw [e, bind_ok, assertM_true (decide_eq_true ⟨hab, hlen⟩)]; rfl, w', c', t'⟩
  split
  · next hlt =>
    rw [if_pos (by omega), bind_ok]
    obtain ⟨gb, e, w, c, t⟩ := new_pushBytes g.capacity
      (List.drop a (List.take (min b g.asBytes.1.length) g.asBytes.1))
      (by simp only [List.length_drop, List.length_take]; omega)
    rw [e]
    refine key gb w c ?_
    rw [t]
    congr 1
    by_cases hc : b ≤ g.asBytes.1.length
    · rw [Nat.min_eq_left hc]
    · rw [Nat.min_eq_right (by omega), List.take_length, List.take_of_length_le (by omega)]
  · next hlt =>
    refine key (new g.capacity) (new_wf _) (new_capacity _) ?_
    rw [new_toVec, eq_comm]
    apply List.drop_eq_nil_of_le
    simp only [List.length_take]
    omega

/-- `slice_(a..b)` keeps exactly the sub-list. -/
theorem C38_slice_in_place (g : GapBuf) (h : g.WF) (a b : Nat) (hab : a ≤ b) (hb : b ≤ g.toVec.length) :
    ∃ g', g.sliceMut a b = .ok g' ∧ g'.WF ∧ g'.capacity = g.capacity ∧
      g'.toVec = (g.toVec.take b).drop a := by
  have hl := toVec_length g h
  obtain ⟨g1, e1, w1, c1, t1⟩ := delete_spec g h b g.len
  obtain ⟨g2, e2, w2, c2, t2⟩ := delete_spec g1 w1 0 a
  have t : g2.toVec = (g.toVec.take b).drop a := by
    rw [t2, t1, ← hl, Nat.min_eq_left hb]
    simp
  have hlen : g2.len = b - a := by
    rw [← toVec_length g2 w2, t]; simp; omega
  exact ⟨g2, by rw [sliceMut, e1, bind_ok, e2, bind_ok, assertM_true (decide_eq_true ⟨hab, hlen⟩)]; rfl, w2, by omega, t⟩

/-- `can_merge` says whether both fit into one buffer; `merge_right`/`merge_left` concatenate. -/
theorem C38_merge (g r : GapBuf) (h : g.WF) (hr : r.WF) :
    (g.canMerge r = true ↔ g.toVec.length + r.toVec.length ≤ g.capacity) ∧
    (g.canMerge r = true → ∃ g', g.mergeRight r = .ok g' ∧ g'.WF ∧ g'.capacity = g.capacity ∧
      g'.toVec = g.toVec ++ r.toVec) ∧
    (g.capacity = r.capacity → g.canMerge r = true → ∃ g', r.mergeLeft g = .ok g' ∧ g'.WF ∧
      g'.capacity = r.capacity ∧ g'.toVec = g.toVec ++ r.toVec) := by
  rw [toVec_length g h, toVec_length r hr]
  refine ⟨by simp [canMerge], mergeRight_spec g r h hr, fun hc hm => ?_⟩
  refine mergeLeft_spec r g hr h ?_
  simp only [canMerge, decide_eq_true_eq] at hm
  omega

/-- `try_insert(i, e)` splices `e` at `i` if it fits and otherwise hands `e` back. -/
theorem C38_try_insert (g e : GapBuf) (h : g.WF) (he : e.WF) (i : Nat) (hi : i ≤ g.toVec.length) :
    (g.toVec.length + e.toVec.length ≤ g.capacity →
      ∃ g', g.tryInsert i e = .ok (.inl g') ∧ g'.WF ∧ g'.capacity = g.capacity ∧
        g'.toVec = g.toVec.take i ++ e.toVec ++ g.toVec.drop i) ∧
    (g.capacity < g.toVec.length + e.toVec.length → g.tryInsert i e = .ok (.inr e)) := by
  rw [toVec_length g h, toVec_length e he] at *
  exact ⟨tryInsert_spec g e h he i hi, tryInsert_full g e i⟩

/-- `push(v)` (unused in the crate) writes the byte at the gap position, not at the end. -/
theorem C38_push (g : GapBuf) (h : g.WF) (v : UInt8) :
    (g.toVec.length < g.capacity → ∃ g', g.push v = .ok (some g') ∧ g'.WF ∧ g'.capacity = g.capacity ∧
      g'.toVec = g.toVec.take g.gapStart ++ [v] ++ g.toVec.drop g.gapStart) ∧
    (g.toVec.length = g.capacity → g.push v = .ok none) := by
  have hw : g.gapStart + g.gapLen ≤ g.buffer.length := h
  rw [toVec_length g h]
  simp only [len, capacity, push]
  constructor
  · intro hlt
    rw [if_neg (by omega), if_pos (by omega)]
    refine ⟨_, rfl, ?_, ?_, ?_⟩
    · simp [WF]; omega
    · simp
    · simp only [toVec, asBytes]
      apply List.ext_getElem?
      intro n
      simp only [List.getElem?_append, List.getElem?_take, List.getElem?_drop, List.length_append,
        List.length_take, List.length_drop, List.getElem?_set]
      grind
  · intro he
    rw [if_pos (by omega)]

/-- Non-vacuity: the sample buffer satisfies the hypotheses, the gap is in the middle, and the three
outcomes (fits, does not fit, merge) all occur. -/
example : gapSample.WF ∧ gapSample.toVec = [1, 2, 3] ∧ 2 ≤ gapSample.toVec.length ∧
    gapSample.toVec.length + [7, 8].length ≤ gapSample.capacity ∧
    gapSample.capacity < gapSample.toVec.length + [7, 8, 9, 10].length ∧
    gapSample.canMerge gapSample = true ∧
    (gapSample.insertBytes 2 [7, 8]).map (Option.map toVec) = .ok (some [1, 2, 7, 8, 3]) :=
  ⟨by simp [WF, gapSample], rfl, by decide, by decide, by decide, by decide, rfl⟩

theorem gapSample_wf : gapSample.WF := by simp [WF, gapSample]

example := C38_new_len 6
example := C38_insert_bytes gapSample gapSample_wf 2 (by decide) [7, 8]
example := C38_push_bytes gapSample gapSample_wf [7, 8]
example := C38_delete gapSample gapSample_wf 1 2
example := C38_split gapSample gapSample_wf 2 (by decide)
example := C38_slice gapSample gapSample_wf 1 3 (by decide) (by decide)
example := C38_slice_in_place gapSample gapSample_wf 1 3 (by decide) (by decide)
example := C38_merge gapSample gapSample gapSample_wf gapSample_wf
example := C38_try_insert gapSample gapSample gapSample_wf gapSample_wf 1 (by decide)
example := C38_push gapSample gapSample_wf 7

end GB

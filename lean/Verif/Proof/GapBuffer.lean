import Verif.Model.GapBuffer
import Verif.Proof.Util

/-!
# Helper lemmas about the gap buffer
-/

namespace GB
namespace GapBuf

/-- The representation invariant: the gap lies inside the array. -/
def WF (g : GapBuf) : Prop := g.gapStart + g.gapLen ≤ g.buffer.length

theorem toVec_length (g : GapBuf) (h : g.WF) : g.toVec.length = g.len := by
  simp only [WF] at h
  simp [toVec, asBytes, len]; omega

theorem shiftAt_spec (g : GapBuf) (h : g.WF) (i : Nat) (hi : i ≤ g.len) :
    ∃ g', g.shiftAt i = .ok g' ∧ g'.WF ∧ g'.gapStart = i ∧ g'.gapLen = g.gapLen ∧
      g'.buffer.length = g.buffer.length ∧ g'.toVec = g.toVec := by
  simp only [WF] at h
  simp only [len] at hi
  unfold shiftAt
  rw [if_neg (by simp only [len]; omega)]
  dsimp only
  split
  · next he => exact ⟨g, rfl, h, he.symm, rfl, rfl, rfl⟩
  split
  · next hne hlt =>
    rw [copyWithin, if_pos (by omega)]
    refine ⟨_, rfl, ?_, ?_, rfl, ?_, ?_⟩
    · simp [WF]; omega
    · show g.gapStart - (g.gapStart - i) = i
      omega
    · simp; omega
    · simp only [toVec, asBytes]
      apply List.ext_getElem?
      intro n
      simp only [List.getElem?_append, List.getElem?_take, List.getElem?_drop, List.length_append,
        List.length_take, List.length_drop]
      grind
  · next hne hlt =>
    rw [copyWithin, if_pos (by omega)]
    refine ⟨_, rfl, ?_, ?_, rfl, ?_, ?_⟩
    · simp [WF]; omega
    · show g.gapStart + (i - g.gapStart) = i
      omega
    · simp; omega
    · simp only [toVec, asBytes]
      apply List.ext_getElem?
      intro n
      simp only [List.getElem?_append, List.getElem?_take, List.getElem?_drop, List.length_append,
        List.length_take, List.length_drop]
      grind

theorem insertBytes_spec (g : GapBuf) (h : g.WF) (i : Nat) (hi : i ≤ g.len) (b : List UInt8)
    (hb : g.len + b.length ≤ g.capacity) :
    ∃ g', g.insertBytes i b = .ok (some g') ∧ g'.WF ∧ g'.capacity = g.capacity ∧
      g'.toVec = g.toVec.take i ++ b ++ g.toVec.drop i := by
  have hw : g.gapStart + g.gapLen ≤ g.buffer.length := h
  simp only [len, capacity] at hi hb
  unfold insertBytes
  rw [if_neg (by omega)]
  obtain ⟨g1, e, w, hs, hl, hc, ht⟩ := shiftAt_spec g h i hi
  have hw1 : g1.gapStart + g1.gapLen ≤ g1.buffer.length := w
  rw [e, bind_ok, copyFrom, if_pos (by omega)]
  refine ⟨_, rfl, ?_, ?_, ?_⟩
  · simp [WF]; omega
  · simp [capacity]; omega
  · rw [← ht]
    simp only [toVec, asBytes]
    apply List.ext_getElem?
    intro n
    simp only [List.getElem?_append, List.getElem?_take, List.getElem?_drop, List.length_append,
      List.length_take, List.length_drop]
    grind

theorem insertBytes_full (g : GapBuf) (h : g.WF) (i : Nat) (b : List UInt8)
    (hb : g.capacity < g.len + b.length) : g.insertBytes i b = .ok none := by
  simp only [len, capacity, WF] at h hb
  unfold insertBytes
  rw [if_pos (by omega)]

theorem insertBytesPair_spec (g : GapBuf) (h : g.WF) (i : Nat) (hi : i ≤ g.len) (l r : List UInt8)
    (hb : g.len + (l.length + r.length) ≤ g.capacity) :
    ∃ g', g.insertBytesPair i l r = .ok (some g') ∧ g'.WF ∧ g'.capacity = g.capacity ∧
      g'.toVec = g.toVec.take i ++ (l ++ r) ++ g.toVec.drop i := by
  have hw : g.gapStart + g.gapLen ≤ g.buffer.length := h
  simp only [len, capacity] at hi hb
  unfold insertBytesPair
  dsimp only
  rw [if_neg (by omega)]
  obtain ⟨g1, e, w, hs, hl, hc, ht⟩ := shiftAt_spec g h i hi
  have hw1 : g1.gapStart + g1.gapLen ≤ g1.buffer.length := w
  rw [e, bind_ok, copyFrom, if_pos (by omega), bind_ok, copyFrom, if_pos (by simp; omega)]
  refine ⟨_, rfl, ?_, ?_, ?_⟩
  · simp [WF]; omega
  · simp [capacity]; omega
  · rw [← ht]
    simp only [toVec, asBytes]
    apply List.ext_getElem?
    intro n
    simp only [List.getElem?_append, List.getElem?_take, List.getElem?_drop, List.length_append,
      List.length_take, List.length_drop]
    grind

theorem insertBytesPair_full (g : GapBuf) (h : g.WF) (i : Nat) (l r : List UInt8)
    (hb : g.capacity < g.len + (l.length + r.length)) : g.insertBytesPair i l r = .ok none := by
  simp only [len, capacity, WF] at h hb
  unfold insertBytesPair
  dsimp only
  rw [if_pos (by omega)]

theorem new_wf (cap : Nat) : (new cap).WF := by simp [WF, new]
theorem new_len (cap : Nat) : (new cap).len = 0 := by simp [len, new]
theorem new_toVec (cap : Nat) : (new cap).toVec = [] := by simp [toVec, asBytes, new]
theorem new_capacity (cap : Nat) : (new cap).capacity = cap := by simp [capacity, new]

theorem len_le (g : GapBuf) : g.len ≤ g.capacity := by simp [len, capacity]

theorem pushBytes_spec (g : GapBuf) (h : g.WF) (b : List UInt8) (hb : g.len + b.length ≤ g.capacity) :
    ∃ g', g.pushBytes b = .ok (some g') ∧ g'.WF ∧ g'.capacity = g.capacity ∧
      g'.toVec = g.toVec ++ b := by
  obtain ⟨g', e, w, c, t⟩ := insertBytes_spec g h g.len (Nat.le_refl _) b hb
  refine ⟨g', e, w, c, ?_⟩
  rw [t, ← toVec_length g h]
  simp

theorem new_pushBytes (cap : Nat) (b : List UInt8) (hb : b.length ≤ cap) :
    ∃ g', (new cap).pushBytes b = .ok (some g') ∧ g'.WF ∧ g'.capacity = cap ∧ g'.toVec = b := by
  have := pushBytes_spec (new cap) (new_wf cap) b (by rw [new_len, new_capacity]; omega)
  rw [new_capacity, new_toVec] at this
  simpa using this

theorem delete_spec (g : GapBuf) (h : g.WF) (a b : Nat) :
    ∃ g', g.delete a b = .ok g' ∧ g'.WF ∧ g'.capacity = g.capacity ∧
      g'.toVec = g.toVec.take (min a b) ++ g.toVec.drop b := by
  have hl := toVec_length g h
  unfold delete
  dsimp only
  split
  · next he =>
    refine ⟨g, rfl, h, rfl, ?_⟩
    apply List.ext_getElem?
    intro n
    simp only [List.getElem?_append, List.getElem?_take, List.getElem?_drop, List.length_take]
    grind
  · next hne =>
    obtain ⟨g1, e, w, hs, hgl, hc, ht⟩ := shiftAt_spec g h (min b g.len) (by omega)
    have hw1 : g1.gapStart + g1.gapLen ≤ g1.buffer.length := w
    rw [e, bind_ok]
    refine ⟨_, rfl, ?_, hc, ?_⟩
    · simp only [WF]; omega
    · rw [← ht]
      have hl1 := toVec_length g1 w
      have : g1.len = g.len := by simp only [len]; omega
      simp only [toVec, asBytes]
      apply List.ext_getElem?
      intro n
      simp only [List.getElem?_append, List.getElem?_take, List.getElem?_drop, List.length_append,
        List.length_take, List.length_drop]
      grind [len]

theorem split_spec (g : GapBuf) (h : g.WF) (i : Nat) (hi : i ≤ g.len) :
    ∃ l r, g.split i = .ok (l, r) ∧ l.WF ∧ r.WF ∧ l.capacity = g.capacity ∧ r.capacity = g.capacity ∧
      l.toVec = g.toVec.take i ∧ r.toVec = g.toVec.drop i := by
  unfold split
  obtain ⟨g1, e, w, hs, hgl, hc, ht⟩ := shiftAt_spec g h i hi
  have hw1 : g1.gapStart + g1.gapLen ≤ g1.buffer.length := w
  have hl := len_le g
  rw [e, bind_ok]
  obtain ⟨r, er, wr, cr, tr⟩ := new_pushBytes g1.capacity g1.asBytes.2 (by
    simp only [asBytes, capacity, List.length_drop]; omega)
  rw [er, bind_ok]
  refine ⟨_, r, rfl, ?_, wr, ?_, ?_, ?_, ?_⟩
  · simp only [WF, capacity] at *; omega
  · simp only [capacity] at *; omega
  · rw [cr]; simp only [capacity]; omega
  · simp only [toVec, asBytes, capacity] at *
    rw [← ht]
    apply List.ext_getElem?
    intro n
    simp only [List.getElem?_append, List.getElem?_take, List.getElem?_drop, List.length_append,
      List.length_take, List.length_drop]
    grind
  · rw [tr, ← ht]
    simp only [toVec, asBytes]
    apply List.ext_getElem?
    intro n
    simp only [List.getElem?_append, List.getElem?_take, List.getElem?_drop, List.length_append,
      List.length_take, List.length_drop]
    grind

theorem asBytes_length (g : GapBuf) (h : g.WF) : g.asBytes.1.length + g.asBytes.2.length = g.len := by
  have := toVec_length g h
  simpa [toVec] using this

theorem mergeRight_spec (g r : GapBuf) (h : g.WF) (hr : r.WF) (hm : g.canMerge r = true) :
    ∃ g', g.mergeRight r = .ok g' ∧ g'.WF ∧ g'.capacity = g.capacity ∧ g'.toVec = g.toVec ++ r.toVec := by
  simp only [canMerge, decide_eq_true_eq] at hm
  obtain ⟨g', e, w, c, t⟩ := insertBytesPair_spec g h g.len (Nat.le_refl _) r.asBytes.1 r.asBytes.2
    (by rw [asBytes_length r hr]; exact hm)
  refine ⟨g', by simp only [mergeRight, e, bind_ok, unwrap], w, c, ?_⟩
  rw [t, ← toVec_length g h]
  simp only [List.take_length, List.drop_length, List.append_nil]
  rfl

theorem mergeLeft_spec (g l : GapBuf) (h : g.WF) (hr : l.WF) (hm : g.len + l.len ≤ g.capacity) :
    ∃ g', g.mergeLeft l = .ok g' ∧ g'.WF ∧ g'.capacity = g.capacity ∧ g'.toVec = l.toVec ++ g.toVec := by
  obtain ⟨g', e, w, c, t⟩ := insertBytesPair_spec g h 0 (Nat.zero_le _) l.asBytes.1 l.asBytes.2
    (by rw [asBytes_length l hr]; exact hm)
  refine ⟨g', by simp only [mergeLeft, e, bind_ok, unwrap], w, c, ?_⟩
  rw [t]
  simp [toVec]

theorem tryInsert_spec (g e : GapBuf) (h : g.WF) (he : e.WF) (i : Nat) (hi : i ≤ g.len)
    (hb : g.len + e.len ≤ g.capacity) :
    ∃ g', g.tryInsert i e = .ok (.inl g') ∧ g'.WF ∧ g'.capacity = g.capacity ∧
      g'.toVec = g.toVec.take i ++ e.toVec ++ g.toVec.drop i := by
  obtain ⟨g', e', w, c, t⟩ := insertBytesPair_spec g h i hi e.asBytes.1 e.asBytes.2
    (by rw [asBytes_length e he]; exact hb)
  refine ⟨g', ?_, w, c, t⟩
  unfold tryInsert
  rw [if_neg (by omega), e', bind_ok, unwrap, bind_ok]
  rfl

theorem tryInsert_full (g e : GapBuf) (i : Nat) (hb : g.capacity < g.len + e.len) :
    g.tryInsert i e = .ok (.inr e) := by
  unfold tryInsert
  rw [if_pos hb]

theorem fromStrF_spec (cap : Nat) (hc : 0 < cap) : ∀ (n : Nat) (s : List UInt8), s.length < n →
    ∃ gs, fromStrF cap n s = .ok gs ∧ gs.flatMap toVec = s ∧
      (∀ g ∈ gs, g.WF ∧ g.capacity = cap ∧ g.toVec ≠ []) ∧
      (∀ g ∈ gs.dropLast, g.toVec.length = cap) := by
  intro n
  induction n with
  | zero => intro s h; omega
  | succ n ih =>
    intro s hs
    cases s with
    | nil => exact ⟨[], rfl, rfl, by simp, by simp⟩
    | cons a s =>
      simp only [fromStrF]
      obtain ⟨g, e, w, c, t⟩ := new_pushBytes cap ((a :: s).take cap) (by simp; omega)
      obtain ⟨gs, e2, t2, w2, f2⟩ := ih ((a :: s).drop cap) (by
        simp only [List.length_drop, List.length_cons] at *; omega)
      rw [e, bind_ok, unwrap, bind_ok, e2, bind_ok]
      refine ⟨g :: gs, rfl, ?_, ?_, ?_⟩
      · rw [List.flatMap_cons, t, t2, List.take_append_drop]
      · intro g' hg'
        rcases List.mem_cons.mp hg' with rfl | hg'
        · refine ⟨w, c, ?_⟩
          rw [t]
          cases cap with
          | zero => omega
          | succ k => simp
        · exact w2 g' hg'
      · intro g' hg'
        cases gs with
        | nil => simp at hg'
        | cons g2 gs' =>
          simp only [List.dropLast_cons_cons, List.mem_cons] at hg'
          rcases hg' with rfl | hg'
          · rw [t]
            have h1 : g2.toVec ≠ [] := (w2 g2 (by simp)).2.2
            have : (a :: s).drop cap ≠ [] := by
              rw [← t2]
              simp [h1]
            have : cap < (a :: s).length := by
              apply Nat.lt_of_not_le
              intro hle
              exact this (List.drop_eq_nil_of_le hle)
            simp only [List.length_take]
            omega
          · exact f2 g' hg'

end GapBuf
end GB

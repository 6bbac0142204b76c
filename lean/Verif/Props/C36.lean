import Verif.Proof.RopeClear
import Verif.Proof.RopeFull
import Verif.Proof.SampleTwo

/-!
# C36: `Rope::clear`

The full statement, "after `clear()` the rope behaves like a new rope for every later history", is false:
`clear` (src/generic_impl/rope.rs:242-244) keeps the cached cursor, which then points into the new arena.
Exactly two kinds of ropes are safe: those without a cached cursor, and those whose cursor is the first leaf ever inserted, at
position 0 (`C36_fresh_partial`).  After `clear` of any other rope there are two inserts that go wrong (`C36_false_always`).
-/

namespace GB
open Rope Tree

/-- Witness (capacity 4): after `clear()` the sequence `insert(0, "1234")`, `insert(4, "5")` panics, while on a new
rope it gives `12345`. -/
theorem C36_false_panic :
    (do
      let r ← Rope.new.insert 4 0 [1, 2, 3, 4, 5, 6, 7, 8]
      let r ← r.insert 4 7 [9]
      let r ← r.clear.insert 4 0 [1, 2, 3, 4]
      r.insert 4 4 [5] : M Rope) = .error .panic ∧
    (do
      let r ← Rope.new.insert 4 0 [1, 2, 3, 4]
      let r ← r.insert 4 4 [5]
      r.toBytes : M (List UInt8)) = .ok [1, 2, 3, 4, 5] :=
  ⟨rfl, rfl⟩

/-- Witness (capacity 4): after `clear()` an insert goes to the wrong place. -/
theorem C36_false_content :
    (do
      let r ← Rope.new.insert 4 0 [1, 2, 3, 4]
      let r ← r.insert 4 0 [5, 6, 7, 8]
      let r ← r.insert 4 6 [9]
      let r ← r.clear.insert 4 0 [1, 2, 3, 4, 5, 6, 7, 8]
      let r ← r.insert 4 5 [9]
      r.toBytes : M (List UInt8)) = .ok [1, 9, 2, 3, 4, 5, 6, 7, 8] ∧
    (do
      let r ← Rope.new.insert 4 0 [1, 2, 3, 4, 5, 6, 7, 8]
      let r ← r.insert 4 5 [9]
      r.toBytes : M (List UInt8)) = .ok [1, 2, 3, 4, 5, 9, 6, 7, 8] :=
  ⟨rfl, rfl⟩

/-- What is true: the rope is empty afterwards, and it equals a new rope (and so behaves like one for every later
history) exactly when no cursor was cached. -/
theorem C36_clear_partial (r : Rope) : r.clear.toBytes = .ok [] ∧ r.clear.len = 0 ∧ r.clear.isEmpty = true ∧
    (r.clear = Rope.new ↔ r.cursor = none) := by
  refine ⟨rfl, rfl, rfl, ?_⟩
  constructor
  · intro h
    have := congrArg Rope.cursor h
    exact this
  · intro h
    obtain ⟨t, c⟩ := r
    cases h
    rfl

example : (do let r ← Rope.new.insert 4 0 [1, 2, 3]; pure r.cursor : M _) = .ok none := rfl

/-- Without a cached cursor, or with the first leaf at position 0 in it, the cleared rope shows the right text after every history (texts below 390626 bytes,
as in `C35_short_history_partial`). -/
theorem C36_fresh_partial {cap : Nat} (hcap : 0 < cap) {r : Rope} (hc : r.cursor = none ∨ r.cursor = some ⟨0, 0⟩) {os : List RopeOp} (hv : validEdits [] os)
    (hs : ShortEdits 390626 [] os) : ∃ r', ropeRun cap r.clear os = .ok r' ∧ r'.toBytes = .ok (editAll [] os) ∧ r'.len = (editAll [] os).length ∧
      r'.isEmpty = decide (editAll [] os = []) := by
  rw [show r.clear = ⟨newTree ropeTrait, r.cursor⟩ from rfl]
  generalize r.cursor = c at hc
  induction os with
  | nil => exact ⟨_, rfl, rfl, rfl, rfl⟩
  | cons o os ih =>
    cases o with
    | delete a b =>
      have he : (RopeOp.delete a b).edit [] = [] := by rw [RopeOp.edit]; split <;> simp
      have h1 : editAll [] (.delete a b :: os) = editAll [] os := by rw [editAll, he]
      have h2 : ropeRun cap ⟨newTree ropeTrait, c⟩ (.delete a b :: os) = ropeRun cap ⟨newTree ropeTrait, c⟩ os := rfl
      rw [h1, h2]
      exact ih (by rw [← he]; exact hv.2) (by rw [← he]; exact hs.2)
    | insert i bytes =>
      have hi : i = 0 := by have := hv.1; simpa [RopeOp.valid] using this
      subst hi
      have he : (RopeOp.insert 0 bytes).edit [] = bytes := by simp [RopeOp.edit]
      obtain ⟨t, h1, h2, h3, h4, h5⟩ := clear_insert hcap (m := ⟨1, 4⟩) (by decide) c bytes
      rw [editAll, he, ropeRun, RopeOp.run, h1, bind_ok]
      have hv2 := hv.2
      have hs2 := hs.2
      rw [he] at hv2 hs2
      by_cases hb : bytes = []
      · subst hb
        rw [h5 rfl]
        exact ih hv2 hs2
      · obtain ⟨e, V, hes⟩ := h4 hb
        have ri : RopeInv cap ⟨1, 4⟩ ⟨t, c⟩ := ⟨h2.inv, h2.pos, by
          intro k hk
          have hk : c = some k := hk
          rcases hc with hc | hc
          · rw [hc] at hk; cases hk
          · rw [hc] at hk; cases hk; exact ⟨[], e, V, hes, rfl⟩⟩
        have h3' : (⟨t, c⟩ : Rope).text = bytes := h3
        obtain ⟨r', k1, -, k3⟩ := ropeRun_short hcap os ⟨t, c⟩ ri (by rw [h3']; exact hv2) (by rw [h3']; exact hs2)
        rw [h3'] at k3
        exact ⟨r', k1, k3.bytes, k3.len, k3.empty⟩

/-- With any other cached cursor: inserting a text that ends at its position, and then one more byte at the end, is right on a new rope, but panics or gives
another text on the cleared one.  (Leaf numbers: in the code an old index can also differ from all new ones in its generation; then the insert panics, which is
one of the two outcomes here.) -/
theorem C36_false_always {cap : Nat} (hcap : 2 ≤ cap) {r : Rope} {pos leaf : Nat} (hc : r.cursor = some ⟨pos, leaf⟩) (hne : ¬ (pos = 0 ∧ leaf = 0)) :
    ∃ os, validEdits [] os ∧ (∃ r', ropeRun cap Rope.new os = .ok r' ∧ r'.text = editAll [] os) ∧
      ∀ r', ropeRun cap r.clear os = .ok r' → r'.toBytes ≠ .ok (editAll [] os) := by
  obtain ⟨n, hn1, hnp⟩ : ∃ n, 0 < n ∧ (pos = 0 ∧ n = 1 ∨ pos = n) := by
    by_cases h : pos = 0
    · exact ⟨1, by omega, .inl ⟨h, rfl⟩⟩
    · exact ⟨pos, by omega, .inr rfl⟩
  have hedit : editAll [] [.insert 0 (List.replicate n 0), .insert pos [1]] = splice (List.replicate n 0) pos [1] := by
    simp [editAll, RopeOp.edit, splice]
  refine ⟨[.insert 0 (List.replicate n 0), .insert pos [1]], ?_, ?_, ?_⟩
  · refine ⟨Nat.le_refl _, ?_, trivial⟩
    simp only [RopeOp.valid, RopeOp.edit, List.take_nil, List.drop_nil, List.nil_append, List.append_nil, List.length_replicate]
    omega
  · obtain ⟨t, h1, h2, h3, -, -⟩ := clear_insert (cap := cap) (by omega) (m := 5) (by decide) none (List.replicate n 0)
    obtain ⟨r', k1, -, k3⟩ := ropeInsert_spec (cap := cap) (by omega) (m := 5) (by decide) h2 (index := pos) (by rw [h3, List.length_replicate]; omega) [1]
    refine ⟨r', ?_, by rw [k3, h3, hedit]⟩
    rw [show Rope.new = ⟨newTree ropeTrait, none⟩ from rfl]
    simp only [ropeRun, RopeOp.run, h1, bind_ok, k1]
  · intro r' hr'
    rw [show r.clear = ⟨newTree ropeTrait, r.cursor⟩ from rfl, hc] at hr'
    obtain ⟨t, h1, h2, h3, h4, -⟩ := clear_insert (cap := cap) (by omega) (m := 5) (by decide) (some ⟨pos, leaf⟩) (List.replicate n 0)
    simp only [ropeRun, RopeOp.run, h1, bind_ok] at hr'
    have hemp : (⟨t, some ⟨pos, leaf⟩⟩ : Rope).isEmpty = false := by
      have := h2.isEmpty (by decide)
      rw [h3] at this
      rw [show (⟨t, some ⟨pos, leaf⟩⟩ : Rope).isEmpty = (⟨t, none⟩ : Rope).isEmpty from rfl, this]
      simp; omega
    have hlen : (⟨t, some ⟨pos, leaf⟩⟩ : Rope).len = n := by
      have := h2.len (by decide)
      rw [h3, List.length_replicate] at this
      exact this
    obtain ⟨r1, hr1, hr2⟩ := bind_inv hr'
    cases hr2
    rw [Rope.insert, hlen, hemp, if_neg (by omega), if_neg (by simp)] at hr1
    cases hg : t.lf.get leaf with
    | none =>
      rw [insertFast_dead hg (Nat.le_refl _)] at hr1
      cases hr1
    | some L =>
      obtain ⟨h, hi⟩ := h2.inv
      obtain ⟨lvl, g⟩ := hi.ex
      obtain ⟨U, V, hes⟩ := List.append_of_mem ((entries_mem g.wf).mpr (show elm t leaf = some L.elem by rw [elm_of hg]))
      obtain ⟨r2, k1, k2, k3⟩ := insertFast_astray hcap (m := 5) (by decide) h2 (pos := pos) hes 1
      rw [k1] at hr1
      cases hr1
      rw [h3] at k3
      -- the leaf starts before the end of the text
      have hpos := h2.pos (leaf, L.elem) (by show _ ∈ entries t; rw [hes]; simp)
      have htl := h2.text_length
      rw [h3, List.length_replicate, show (abs (⟨t, none⟩ : Rope).tree).es = _ from hes, unitLen_append, unitLen_cons] at htl
      have hlt : unitLen ropeTrait U < n := by
        have : 0 < ropeTrait.rleLen L.elem := hpos
        simp only at htl
        omega
      have hpn : unitLen ropeTrait U ≠ pos := by
        rcases hnp with ⟨h0, h1n⟩ | hp
        · -- one byte is one chunk
          exfalso
          obtain ⟨e, W, hes'⟩ := h4 (by simp; omega)
          have hle := h2.entries_le
          rw [h3, List.length_replicate, show (abs (⟨t, none⟩ : Rope).tree).es = _ from hes'] at hle
          have hW : W = [] := by
            apply List.eq_nil_of_length_eq_zero
            simp only [List.length_cons] at hle
            omega
          subst hW
          have hm : (leaf, L.elem) ∈ [((0 : Nat), e)] := by rw [← show entries t = _ from hes', hes]; simp
          rw [List.mem_singleton] at hm
          exact hne ⟨h0, congrArg Prod.fst hm⟩
        · omega
      have hdiff : splice (List.replicate n (0 : UInt8)) (unitLen ropeTrait U) [1] ≠ splice (List.replicate n 0) pos [1] := by
        intro h
        have hx := congrArg (fun l => l[unitLen ropeTrait U]?) h
        have h1 : (splice (List.replicate n (0 : UInt8)) (unitLen ropeTrait U) [1])[unitLen ropeTrait U]? = some 1 := by
          rw [splice, List.append_assoc, List.getElem?_append_right (by simp; omega)]
          simp [show min (unitLen ropeTrait U) n = unitLen ropeTrait U by omega]
        have h2 : (splice (List.replicate n (0 : UInt8)) pos [1])[unitLen ropeTrait U]? = some 0 := by
          have : unitLen ropeTrait U < pos := by omega
          rw [splice, List.append_assoc, List.getElem?_append_left (by simp; omega), List.getElem?_take_of_lt this, List.getElem?_replicate, if_pos hlt]
        simp only [h1, h2] at hx
        exact absurd (Option.some.inj hx) (by decide)
      rw [hedit]
      intro hb
      obtain ⟨h', hi'⟩ := k2
      rcases Nat.lt_or_ge h' 10 with hh | hh
      · rw [ropeBytes_spec (by decide) hi' (by omega)] at hb
        exact hdiff (k3 ▸ Except.ok.inj hb)
      · have hne' : (abs r'.tree).es ≠ [] := by
          intro h0
          have : r'.text = [] := by rw [Rope.text, h0]; rfl
          rw [this] at k3
          simp [splice] at k3
        have := ropeBytes_full (c := r'.cursor) (by decide) hi' hh hne'
        rw [show (⟨r'.tree, r'.cursor⟩ : Rope) = r' from rfl, hb] at this
        cases this

/-- the rope of `C36_false_panic` before the clear has the cursor ⟨4, 1⟩ -/
example : (do let r ← Rope.new.insert 4 0 [1, 2, 3, 4, 5, 6, 7, 8]; let r ← r.insert 4 7 [9]; pure r.cursor : M _) = .ok (some ⟨4, 1⟩) := rfl
example (t : Tree GapBuf Int) := C36_false_always (cap := 4) (by decide) (r := ⟨t, some ⟨4, 1⟩⟩) rfl (by decide)

/-- an insert into the first chunk leaves the harmless cursor -/
example : (do let r ← Rope.new.insert 4 0 [1, 2, 3]; let r ← r.insert 4 2 [9, 9]; pure r.cursor : M _) = .ok (some ⟨0, 0⟩) := rfl
example (t : Tree GapBuf Int) : ∃ r', ropeRun 4 (Rope.clear ⟨t, some ⟨0, 0⟩⟩) [.insert 0 [1, 2, 3], .insert 1 [7], .delete 0 2] = .ok r' ∧ r'.toBytes = .ok [2, 3] := by
  obtain ⟨r', h1, h2, -⟩ := C36_fresh_partial (cap := 4) (by decide) (r := ⟨t, some ⟨0, 0⟩⟩) (.inr rfl)
    (os := [.insert 0 [1, 2, 3], .insert 1 [7], .delete 0 2]) (by simp [validEdits, RopeOp.valid, RopeOp.edit]) (by simp [ShortEdits, RopeOp.edit])
  exact ⟨r', h1, h2⟩

example := C36_clear_partial ⟨ropeSample, some ⟨3, 1⟩⟩

end GB

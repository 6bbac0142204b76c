import Verif.Proof.RopeHist
import Verif.Proof.SampleTwo

/-!
# C37: `Rope::len` is the byte length of its text
-/

namespace GB
open Tree

/-- Every reachable rope of at most 9 levels (`RopeInv` holds for a new rope and is kept by every edit, C35): the length
is that of the bytes `Display` writes, and `is_empty` says whether there are any. -/
theorem C37_len {cap h : Nat} {m : Fill} {r : Rope} (hm : 1 ≤ m.lo) (ri : RopeInv cap m r) (hi : InvH (ropeLaw cap) m h r.tree) (hh : h ≤ 9) :
    ∃ t, r.toBytes = .ok t ∧ r.len = t.length ∧ r.isEmpty = decide (t = []) :=
  ⟨r.text, ropeBytes_spec hm hi hh, ri.len hm, ri.isEmpty hm⟩

/-- Over histories: whenever a history of valid edits runs to the end, `len` is the length of the text; only the ropes on
the way need to have at most 8 levels. -/
theorem C37_history {cap : Nat} (hcap : 0 < cap) {os : List RopeOp} (hv : validEdits [] os)
    (hd : ∀ k r d, ropeRun cap Rope.new (os.take k) = .ok r → depth r.tree = .ok d → d ≤ 8) {r : Rope} (hr : ropeRun cap Rope.new os = .ok r) :
    r.toBytes.map List.length = .ok r.len := by
  have h0 : Rope.new.text = [] := (ropeNew_inv (cap := cap) (m := 1) (by decide)).nil.mpr (by
    rw [show Rope.new.tree = newTree ropeTrait from rfl, new_entries])
  obtain ⟨r', h1, -, -, h4⟩ := ropeRun_spec hcap os Rope.new (ropeNew_inv (by decide)) (by rw [h0]; exact hv) hd
  rw [hr] at h1
  cases h1
  rw [h4.bytes, h4.len]
  rfl

/-- The length does not need the height bound at all: it is the sum of the chunk lengths in every reachable rope. -/
theorem C37_len_any_height {cap : Nat} {m : Fill} {r : Rope} (hm : 1 ≤ m.lo) (ri : RopeInv cap m r) :
    r.len = ((abs r.tree).es.map fun x => x.2.toVec.length).sum := by
  rw [ri.len hm, Rope.text, content, List.length_flatMap]

example : ∃ r : Rope, ropeRun 4 Rope.new [.insert 0 [1, 2, 3, 4, 5, 6, 7, 8, 9], .insert 9 [10], .delete 8 9] = .ok r ∧ r.len = 9 ∧ r.isEmpty = false := by
  have h0 : Rope.new.text = [] := (ropeNew_inv (cap := 4) (m := 5) (by decide)).nil.mpr (by
    rw [show Rope.new.tree = newTree ropeTrait from rfl, new_entries])
  obtain ⟨r, h1, ri, h4⟩ := ropeRun_small (cap := 4) (by decide) [.insert 0 [1, 2, 3, 4, 5, 6, 7, 8, 9], .insert 9 [10], .delete 8 9] Rope.new
    (ropeNew_inv (by decide)) (by rw [h0]; simp [validEdits, RopeOp.valid, RopeOp.edit]) (by rw [h0]; simp [SmallEdits, RopeOp.edit])
  rw [h0] at h4
  obtain ⟨h, hh, hi⟩ := ri.inv.low (by decide) (Nat.lt_of_le_of_lt ri.entries_le (by rw [← ri.len (by decide), h4.len]; decide))
  obtain ⟨t, t1, t2, t3⟩ := C37_len (by decide) ri hi hh
  rw [h4.bytes] at t1
  cases t1
  exact ⟨r, h1, t2, t3⟩

example := @C37_history 4 (by decide) [.insert 0 [1, 2, 3, 4, 5, 6, 7, 8, 9], .delete 2 5] (by simp [validEdits, RopeOp.valid, RopeOp.edit])

example : (⟨ropeSample, none⟩ : Rope).len = 90 := by
  refine (C37_len_any_height (cap := 4) (m := 5) (by decide)
    ⟨ropeSample_spec.1, by show ∀ x ∈ (abs ropeSample).es, _; rw [ropeSample_es]; decide, fun c h => by cases h⟩).trans ?_
  show ((abs ropeSample).es.map _).sum = 90
  rw [ropeSample_es]
  decide

end GB

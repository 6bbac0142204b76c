import Verif.Proof.RopeHist
import Verif.Proof.RopePanics
import Verif.Proof.SampleTwo

/-!
# C35: `Rope::insert` and `Rope::delete_range` are string splicing

The full statement, "after any history of inserts and deletes the rope's text is that of the same edits on a byte
string, and no operation panics", is false: `NodePath` has room for 10 nodes, and one insert of 20155392 chunks of text
(2.6 GB with `MAX_STRING_SIZE` = 128) makes a tree whose text can neither be read nor deleted (`C35_unbounded_false`).
It is proven for every history in which the text always has fewer than 390626 bytes (`C35_short_history_partial`), and for
longer texts as long as the tree never has more than 8 levels (`C35_history_partial`).  The bound on the bytes rests on the
fill bound `⟨1, 4⟩`, which every edit keeps: at least 5 children off the left edge.
Without any bound, every history panics or is right (`C35_any_history_partial`): no wrong text is ever shown.
Which of the two happens is exactly known: inserts never panic (`C35_insert`), a rope that is not empty can be read iff the tree has at
most 9 levels (`C35_read_iff`), and `C35_delete_panics_iff` says when a delete panics.  The bound of 8 levels is sharp:
`C35_nine_levels`.
-/

namespace GB
open Tree

/-- Every history of valid edits on a new rope, for every chunk capacity: if no rope on the way has more than 8 levels,
nothing panics, and the bytes, the length and the emptiness of the rope are those of the edited byte string. -/
theorem C35_history_partial {cap : Nat} (hcap : 0 < cap) (os : List RopeOp) (hv : validEdits [] os)
    (hd : ∀ k r d, ropeRun cap Rope.new (os.take k) = .ok r → depth r.tree = .ok d → d ≤ 8) :
    ∃ r, ropeRun cap Rope.new os = .ok r ∧ r.toBytes = .ok (editAll [] os) ∧ r.len = (editAll [] os).length ∧
      r.isEmpty = decide (editAll [] os = []) := by
  have h0 : Rope.new.text = [] := (ropeNew_inv (cap := cap) (m := 1) (by decide)).nil.mpr (by
    rw [show Rope.new.tree = newTree ropeTrait from rfl, new_entries])
  obtain ⟨r, h1, -, -, h4⟩ := ropeRun_spec hcap os Rope.new (ropeNew_inv (by decide)) (by rw [h0]; exact hv) hd
  rw [h0] at h4
  exact ⟨r, h1, h4.bytes, h4.len, h4.empty⟩

/-- Without a hypothesis on the height: every history of inserts and deletes, fewer than 390626 bytes of text at all times, for every
chunk capacity. -/
theorem C35_short_history_partial {cap : Nat} (hcap : 0 < cap) (os : List RopeOp) (hv : validEdits [] os) (hs : ShortEdits 390626 [] os) :
    ∃ r, ropeRun cap Rope.new os = .ok r ∧ r.toBytes = .ok (editAll [] os) ∧ r.len = (editAll [] os).length ∧
      r.isEmpty = decide (editAll [] os = []) := by
  have h0 : Rope.new.text = [] := (ropeNew_inv (cap := cap) (m := 1) (by decide)).nil.mpr (by
    rw [show Rope.new.tree = newTree ropeTrait from rfl, new_entries])
  obtain ⟨r, h1, -, h4⟩ := ropeRun_short hcap os Rope.new (ropeNew_inv (by decide)) (by rw [h0]; exact hv) (by rw [h0]; exact hs)
  rw [h0] at h4
  exact ⟨r, h1, h4.bytes, h4.len, h4.empty⟩

/-- For inserts of any strings and deletes of single bytes the bound is twice as large: fewer than 781250 bytes at all times. -/
theorem C35_small_history {cap : Nat} (hcap : 0 < cap) (os : List RopeOp) (hv : validEdits [] os) (hs : SmallEdits 781250 [] os) :
    ∃ r, ropeRun cap Rope.new os = .ok r ∧ r.toBytes = .ok (editAll [] os) ∧ r.len = (editAll [] os).length ∧
      r.isEmpty = decide (editAll [] os = []) := by
  have h0 : Rope.new.text = [] := (ropeNew_inv (cap := cap) (m := 1) (by decide)).nil.mpr (by
    rw [show Rope.new.tree = newTree ropeTrait from rfl, new_entries])
  obtain ⟨r, h1, -, h4⟩ := ropeRun_small hcap os Rope.new (ropeNew_inv (by decide)) (by rw [h0]; exact hv) (by rw [h0]; exact hs)
  rw [h0] at h4
  exact ⟨r, h1, h4.bytes, h4.len, h4.empty⟩

/-- Without any bound on the text or the height: a history of valid edits panics, or the length and the emptiness are those of the
edited byte string, and reading the rope gives the edited byte string or panics.  The rope never shows a wrong text. -/
theorem C35_any_history_partial {cap : Nat} (hcap : 0 < cap) (os : List RopeOp) (hv : validEdits [] os) :
    ropeRun cap Rope.new os = .error .panic ∨
    ∃ r, ropeRun cap Rope.new os = .ok r ∧ r.len = (editAll [] os).length ∧ r.isEmpty = decide (editAll [] os = []) ∧
      (r.toBytes = .ok (editAll [] os) ∨ r.toBytes = .error .panic) := by
  have h0 : Rope.new.text = [] := (ropeNew_inv (cap := cap) (m := 1) (by decide)).nil.mpr (by
    rw [show Rope.new.tree = newTree ropeTrait from rfl, new_entries])
  by_cases hn : ropeRun cap Rope.new os = .error .panic
  · exact .inl hn
  obtain ⟨r, h1, ri, h3⟩ := ropeRun_any hcap os Rope.new (ropeNew_inv (by decide)) (by rw [h0]; exact hv) hn
  rw [h0] at h3
  refine .inr ⟨r, h1, by rw [ri.len (by decide), h3], by rw [ri.isEmpty (by decide), h3], ?_⟩
  rw [← h3]
  by_cases hne : r.text = []
  · rw [hne]; exact .inl (ropeBytes_empty (by decide) ri hne)
  · obtain ⟨h, hi⟩ := ri.inv
    rcases Nat.lt_or_ge 9 h with hh | hh
    · exact .inr (ropeBytes_full (by decide) hi hh (fun h => hne (ri.nil.mpr h)))
    · exact .inl (ropeBytes_spec (by decide) hi hh)

/-- One insert from any reachable rope (`RopeInv`: valid tree, no empty chunks, correct cached cursor), any height. -/
theorem C35_insert {cap : Nat} {m : Fill} (hcap : 0 < cap) (hm : 1 ≤ m.lo ∧ m.lo + m.d ≤ 5) {r : Rope} (ri : RopeInv cap m r) {i : Nat} (hi : i ≤ r.text.length)
    (bytes : List UInt8) : ∃ r', r.insert cap i bytes = .ok r' ∧ RopeInv cap m r' ∧ r'.text = r.text.take i ++ bytes ++ r.text.drop i :=
  ropeInsert_spec hcap hm ri hi bytes

/-- An insert beyond the end panics (the assertion of src/generic_impl/rope.rs:49). -/
theorem C35_insert_out_of_range {cap : Nat} {m : Fill} (hm : 1 ≤ m.lo) {r : Rope} (ri : RopeInv cap m r) {i : Nat} (hi : r.text.length < i)
    (bytes : List UInt8) : r.insert cap i bytes = .error .panic := by
  rw [Rope.insert, if_pos (by rw [ri.len hm]; exact hi)]

/-- One delete from any reachable rope of at most 8 levels, or of any height if it does not panic; ranges are clamped, empty and inverted ranges change nothing. -/
theorem C35_delete {cap h : Nat} {m : Fill} (hm : 1 ≤ m.lo ∧ m.lo + m.d ≤ 5) {r : Rope} (ri : RopeInv cap m r) (hi : InvH (ropeLaw cap) m h r.tree) (start stop : Nat)
    (hh : h ≤ 8 ∨ r.deleteRange start stop ≠ .error .panic) : ∃ r', r.deleteRange start stop = .ok r' ∧ RopeInv cap (if stop ≤ start + 1 then m else m.drained) r' ∧
      r'.text = r.text.take start ++ r.text.drop (max start stop) :=
  ropeDelete_spec hm ri hi start stop hh

/-- Exactly when a delete panics.  If the cached cursor is at a chunk with the whole range, never.  Else, for one byte: on 11 or more
levels.  For two or more bytes: if they do not end in the chunk they start in, and the tree has 10 or more levels, or 9 and one of the
two cuts raises it (the end, or after that the start, lies inside a chunk above which all nodes are full). -/
theorem C35_delete_panics_iff {cap h : Nat} {m : Fill} (hm : 1 ≤ m.lo ∧ m.lo + m.d ≤ 5) {r : Rope} (ri : RopeInv cap m r)
    (hi : InvH (ropeLaw cap) m h r.tree) {start stop : Nat} (hlt : start < stop) (hle : stop ≤ r.text.length) :
    r.deleteRange start stop = .error .panic ↔ ¬ r.Cached start stop ∧
      (stop = start + 1 ∧ 11 ≤ h ∨
       start + 1 < stop ∧ ∃ a b, query ropeQuery r.tree start = .ok (some a) ∧ query ropeQuery r.tree stop = .ok (some b) ∧
        a.cursor.leaf ≠ b.cursor.leaf ∧ (10 ≤ h ∨ h = 9 ∧ CutsRaise ropeTrait r.tree a.cursor b.cursor)) :=
  ropeDelete_panics hm ri hi hlt hle

/-- Exactly when a rope can be read. -/
theorem C35_read_iff {cap h : Nat} {m : Fill} (hm : 1 ≤ m.lo) {r : Rope} (ri : RopeInv cap m r) (hi : InvH (ropeLaw cap) m h r.tree) :
    (r.toBytes = .ok r.text ↔ h ≤ 9 ∨ r.text = []) ∧ (r.toBytes = .error .panic ↔ 10 ≤ h ∧ r.text ≠ []) := by
  by_cases hne : r.text = []
  · have := ropeBytes_empty hm ri hne
    simp [hne, this]
  · rcases Nat.lt_or_ge 9 h with hh | hh
    · have := ropeBytes_full (c := r.cursor) hm hi hh (fun h => hne (ri.nil.mpr h))
      have : r.toBytes = .error .panic := this
      rw [this]
      simp [hne]
      omega
    · have := ropeBytes_spec hm hi hh
      have : r.toBytes = .ok r.text := this
      rw [this]
      simp [hne]
      omega

/-- The bound of 8 levels is sharp, for every chunk capacity of 2 or more and every text of 20155391 full chunks: the tree has 9
levels; the text can be read and deleted as a whole, but to delete all except the last byte panics. -/
theorem C35_nine_levels {cap : Nat} (hcap : 2 ≤ cap) (bytes : List UInt8) (hlen : bytes.length = cap * 20155391) :
    (∃ r, ropeRun cap Rope.new [.insert 0 bytes] = .ok r ∧ r.toBytes = .ok bytes) ∧
      (∃ r, ropeRun cap Rope.new [.insert 0 bytes, .delete 0 bytes.length] = .ok r ∧ r.toBytes = .ok []) ∧
      validEdits [] [.insert 0 bytes, .delete 0 (bytes.length - 1)] ∧
      ropeRun cap Rope.new [.insert 0 bytes, .delete 0 (bytes.length - 1)] = .error .panic := by
  obtain ⟨t, e1, ri, ht, hi, hc, hf⟩ := ropeNine (by omega) bytes hlen
  obtain ⟨d1, d2⟩ := ropeNine_delete hcap bytes hlen ri ht hi hc hf
  refine ⟨⟨⟨t, none⟩, ?_, ?_⟩, ?_, ?_, ?_⟩
  · simp only [ropeRun, RopeOp.run, e1, bind_ok]
  · have := ropeBytes_spec (r := ⟨t, none⟩) (by decide) hi (by decide)
    rw [this, ← ht]
  · have hi5 : InvH (ropeLaw cap) 5 9 t := ⟨hi.ex, Sz.mono hi.sz (by decide) (by decide)⟩
    obtain ⟨r', k1, k2, k3⟩ := ropeDelete_spec (by decide) ri hi5 0 bytes.length (.inr d2)
    refine ⟨r', ?_, ?_⟩
    · simp only [ropeRun, RopeOp.run, e1, bind_ok, k1]
    · have h0 : r'.text = [] := by rw [k3, ht, Nat.zero_max, List.drop_length]; rfl
      refine ropeBytes_empty (m := ⟨1, 4⟩) (by decide) (k2.mono ?_) h0
      split <;> decide
  · simp [validEdits, RopeOp.valid, RopeOp.edit]
  · simp only [ropeRun, RopeOp.run, e1, bind_ok, d1]
    rfl

/-- The statement without a bound is false, for every chunk capacity and every text of at least 20155392 chunks: the insert
into a new rope succeeds with the right length, but reading the text panics, and so does the history that then deletes it. -/
theorem C35_unbounded_false {cap : Nat} (hcap : 0 < cap) (bytes : List UInt8) (hlen : cap * 20155392 ≤ bytes.length) :
    (∃ r, ropeRun cap Rope.new [.insert 0 bytes] = .ok r ∧ r.len = bytes.length ∧ r.toBytes = .error .panic) ∧
      validEdits [] [.insert 0 bytes, .delete 0 bytes.length] ∧
      ropeRun cap Rope.new [.insert 0 bytes, .delete 0 bytes.length] = .error .panic := by
  obtain ⟨t, h, e1, ri, ht, hi, hh, hc⟩ := ropeFill hcap bytes hlen
  have hne : (abs t).es ≠ [] := by intro h; rw [h] at hc; simp at hc
  refine ⟨⟨⟨t, none⟩, ?_, ?_, ropeBytes_full (by decide) hi hh hne⟩, ?_, ?_⟩
  · simp only [ropeRun, RopeOp.run, e1, bind_ok]
  · rw [ri.len (by decide), ht]
  · simp [validEdits, RopeOp.valid, RopeOp.edit]
  · have hd := ropeDelete_full ri hi hh (by omega) (n := bytes.length) (by rw [ht])
    simp only [ropeRun, RopeOp.run, e1, bind_ok, hd]
    rfl

/-- the capacity of rope.rs and texts of 2579890176 or more equal bytes -/
example (n : Nat) (hn : 2579890176 ≤ n) : ropeRun 128 Rope.new [.insert 0 (List.replicate n 97), .delete 0 n] = .error .panic := by
  have h := (C35_unbounded_false (cap := 128) (by omega) (List.replicate n 97) (by rw [List.length_replicate]; omega)).2.2
  rw [List.length_replicate] at h
  exact h

/-- the capacity of rope.rs and a text of 2579890048 equal bytes -/
example (n : Nat) (hn : n = 2579890048) : ropeRun 128 Rope.new [.insert 0 (List.replicate n 97), .delete 0 (n - 1)] = .error .panic := by
  have h := (C35_nine_levels (cap := 128) (by omega) (List.replicate n 97) (by rw [List.length_replicate, hn])).2.2.2
  rw [List.length_replicate] at h
  exact h

/-- four edits: two inserts, a delete across chunks, and a one-byte delete -/
def sampleEdits : List RopeOp := [.insert 0 [1, 2, 3, 4, 5, 6, 7, 8, 9], .insert 3 [10, 11], .delete 2 7, .delete 1 2]

/-- the edits with chunks of 4 bytes -/
example : ∃ r, ropeRun 4 Rope.new sampleEdits = .ok r ∧ r.toBytes = .ok [1, 6, 7, 8, 9] ∧ r.len = 5 := by
  have hk : ∀ k, (do let r ← ropeRun 4 Rope.new (sampleEdits.take k); depth r.tree : M Nat).toOption.all (fun d => decide (d ≤ 8)) = true := by
    intro k
    match k with
    | 0 => decide +kernel
    | 1 => decide +kernel
    | 2 => decide +kernel
    | 3 => decide +kernel
    | k + 4 =>
      rw [List.take_of_length_le (by simp [sampleEdits])]
      decide +kernel
  obtain ⟨r, h1, h2, h3, -⟩ := C35_history_partial (cap := 4) (by decide) sampleEdits
    (by simp [sampleEdits, validEdits, RopeOp.valid, RopeOp.edit]) (by
      intro k r d h1 h2
      have := hk k
      rw [h1, bind_ok, h2] at this
      simpa [Except.toOption] using this)
  exact ⟨r, h1, h2, h3⟩

/-- the same edits with chunks of 4 bytes, without computing the height of any tree -/
example : ∃ r, ropeRun 4 Rope.new sampleEdits = .ok r ∧ r.toBytes = .ok [1, 6, 7, 8, 9] ∧ r.len = 5 := by
  obtain ⟨r, h1, h2, h3, -⟩ := C35_short_history_partial (cap := 4) (by decide) sampleEdits
    (by simp [sampleEdits, validEdits, RopeOp.valid, RopeOp.edit]) (by simp [sampleEdits, ShortEdits, RopeOp.edit])
  exact ⟨r, h1, h2, h3⟩

/-- the same edits, and then an insert of any text: a panic, or the right length -/
example (w : List UInt8) : ropeRun 4 Rope.new (sampleEdits ++ [.insert 0 w]) = .error .panic ∨
    ∃ r, ropeRun 4 Rope.new (sampleEdits ++ [.insert 0 w]) = .ok r ∧ r.len = w.length + 5 := by
  rcases C35_any_history_partial (cap := 4) (by decide) (sampleEdits ++ [.insert 0 w])
    (by simp [sampleEdits, validEdits, RopeOp.valid, RopeOp.edit]) with h | ⟨r, h1, h2, -⟩
  · exact .inl h
  · exact .inr ⟨r, h1, by rw [h2]; simp [sampleEdits, editAll, RopeOp.edit]⟩

/-- typing and erasing -/
example : ∃ r, ropeRun 4 Rope.new [.insert 0 [1, 2, 3, 4, 5, 6, 7, 8, 9], .insert 9 [10], .delete 8 9, .delete 0 1, .insert 4 []] = .ok r ∧
    r.toBytes = .ok [2, 3, 4, 5, 6, 7, 8, 10] := by
  obtain ⟨r, h1, h2, -⟩ := C35_small_history (cap := 4) (by decide)
    [.insert 0 [1, 2, 3, 4, 5, 6, 7, 8, 9], .insert 9 [10], .delete 8 9, .delete 0 1, .insert 4 []]
    (by simp [validEdits, RopeOp.valid, RopeOp.edit]) (by simp [SmallEdits, RopeOp.edit])
  exact ⟨r, h1, h2⟩

private abbrev rope90 : Rope := ⟨ropeSample, none⟩

private theorem rope90_inv : RopeInv 4 5 rope90 :=
  ⟨ropeSample_spec.1, by show ∀ x ∈ (abs ropeSample).es, _; rw [ropeSample_es]; decide, fun c h => by cases h⟩

private theorem rope90_len : rope90.text.length = 90 := by
  rw [rope90_inv.text_length]; show unitLen ropeTrait (abs ropeSample).es = 90; rw [ropeSample_es]; decide

/-- deleting 10..62 does not panic -/
example : rope90.deleteRange 10 62 ≠ .error .panic := by
  rw [ne_eq, C35_delete_panics_iff (by decide) rope90_inv ropeSample_two (by decide) (by rw [rope90_len]; decide)]
  omega

example : rope90.toBytes = .ok rope90.text := (C35_read_iff (by decide) rope90_inv ropeSample_two).1.mpr (.inl (by decide))

example := C35_insert (by decide) (by decide) rope90_inv (i := 50) (by rw [rope90_len]; decide) [1, 2, 3, 4, 5, 6]

example := C35_insert_out_of_range (by decide) rope90_inv (i := 91) (by rw [rope90_len]; decide) [1, 2, 3]

example := C35_delete (by decide) rope90_inv ropeSample_two 10 62 (.inl (by decide))

end GB

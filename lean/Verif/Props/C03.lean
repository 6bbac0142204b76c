import Verif.Props.C01
import Verif.Proof.SampleTwo

/-!
# C03: `insert_by_path` splices at the cursor

`specInsert` (Verif.Spec.Seq) is the list operation: it changes the sequence at the cursor only, and shows
which leaf numbers are new.  Cutting a full node while splitting a leaf can leave a node with five children, so
with an offset strictly inside an element the minimum occupancy `m` must be at most 5.
-/

namespace GB
variable {E C D X : Type}
open Tree

/-- Every valid tree, every cursor into it, every well-formed element: no panic, the result is valid, and the
returned cursor, the list of split-off leaves and the new sequence are those of `specInsert`. -/
theorem C03_insert_by_path {B : Trait E C D} {A : Law B} {m : Fill} {s : Tree E C} {cur : Cursor} {e data : E}
    (hm : 1 ≤ m.lo ∧ m.lo + m.d ≤ 6) (hi : Inv A m s) (hc : (cur.leaf, e) ∈ (abs s).es) (ho : cur.offset ≤ B.rleLen e)
    (h5 : m.lo + m.d ≤ 5 ∨ cur.offset = 0 ∨ cur.offset = B.rleLen e) (hd : A.okE data) :
    ∃ c sp s', insertByPath B s cur data = .ok ((c, sp), s') ∧ Inv A m s' ∧
      specInsert B (abs s) cur data = .ok ((c, sp), abs s') := by
  obtain ⟨h, ⟨lvl, g⟩, sz⟩ := hi
  obtain ⟨U, V, hent⟩ := List.append_of_mem hc
  obtain ⟨l, o⟩ := cur
  obtain ⟨c, sp, s', lvl', h', h1, g', sz', -, r⟩ := insertByPath_spec hm.1 hm.2 g sz hent ho h5 hd
  exact ⟨c, sp, s', h1, ⟨h', ⟨lvl', g'⟩, sz'⟩, r.spec g.wf hent ho⟩

/-- The content is spliced at the position of the cursor. -/
theorem C03_insert_content {B : Trait E C D} {A : Law B} {cont : E → List X} (L : ContentLaw B A.okE cont)
    {m : Fill} {s : Tree E C} {cur : Cursor} {e data : E} {U V : List (Nat × E)}
    (hm : 1 ≤ m.lo ∧ m.lo + m.d ≤ 6) (hi : Inv A m s) (hc : (abs s).es = U ++ (cur.leaf, e) :: V) (ho : cur.offset ≤ B.rleLen e)
    (h5 : m.lo + m.d ≤ 5 ∨ cur.offset = 0 ∨ cur.offset = B.rleLen e) (hd : A.okE data) :
    ∃ c sp s', insertByPath B s cur data = .ok ((c, sp), s') ∧ Inv A m s' ∧
      content cont (abs s').es = splice (content cont (abs s).es) (unitLen B U + cur.offset) (cont data) := by
  obtain ⟨c, sp, s', h1, h2, h3⟩ := C03_insert_by_path (B := B) hm hi (by rw [hc]; simp) ho h5 hd
  obtain ⟨h, ⟨lvl, g⟩, sz⟩ := id hi
  have hloc := (locate_entries g.wf).mpr hc
  exact ⟨c, sp, s', h1, h2, specInsert_content' L hloc hi.okE hd A rfl h3⟩

/-- All leaves other than the one under the cursor keep their index and element: the sequence is unchanged
before and after the cursor's leaf, and every new leaf index is fresh. -/
theorem C03_insert_local {B : Trait E C D} {A : Law B} {m : Fill} {s : Tree E C} {cur : Cursor} {e data : E}
    {U V : List (Nat × E)} (hm : 1 ≤ m.lo ∧ m.lo + m.d ≤ 6) (hi : Inv A m s) (hc : (abs s).es = U ++ (cur.leaf, e) :: V)
    (ho : cur.offset ≤ B.rleLen e) (h5 : m.lo + m.d ≤ 5 ∨ cur.offset = 0 ∨ cur.offset = B.rleLen e) (hd : A.okE data) :
    ∃ r s' M, insertByPath B s cur data = .ok (r, s') ∧ (abs s').es = U ++ M ++ V ∧ 1 ≤ M.length ∧ M.length ≤ 3 ∧
      (∀ x ∈ M, x.1 = cur.leaf ∨ (abs s).next ≤ x.1) ∧ (∀ x ∈ (abs s).es, x.1 < (abs s).next) := by
  obtain ⟨c, sp, s', h1, h2, h3⟩ := C03_insert_by_path (B := B) hm hi (by rw [hc]; simp) ho h5 hd
  obtain ⟨h, ⟨lvl, g⟩, sz⟩ := id hi
  have hloc := (locate_entries g.wf).mpr hc
  obtain ⟨M, k1, k2, k3, k4⟩ := specInsert_local hloc h3
  exact ⟨_, s', M, h1, k1, k2, k3, k4, fun x hx => entries_lt hx⟩

/-- inserting inside a chunk of the sample rope: the chunk is full enough not to absorb the new bytes -/
example := C03_insert_content (ropeContent 4) (m := 5) (s := ropeSample) (cur := ⟨17, 1⟩) (by decide) ropeSample_spec.1
  (e := ⟨[17, 1, 2, 0], 3, 1⟩) (U := (List.range 17).map fun i => (i, ⟨[UInt8.ofNat i, 1, 2, 0], 3, 1⟩))
  (V := (List.range 12).map fun i => (i + 18, ⟨[UInt8.ofNat (i + 18), 1, 2, 0], 3, 1⟩))
  (by rw [ropeSample_spec.2]; rfl) (by decide) (by decide) (data := ⟨[7, 8, 9, 0], 3, 1⟩) ⟨by simp [GapBuf.WF], rfl⟩

example := C03_insert_by_path (m := 6) (s := ordSample) (cur := ⟨17, 1⟩) (e := (34, 17)) (by decide) ordSample_spec.1
  (by rw [ordSample_spec.2]; decide) (by decide) (by decide) (data := (35, 0)) trivial

example := C03_insert_local (m := 5) (s := ropeSample) (cur := ⟨17, 1⟩) (by decide) ropeSample_spec.1 (ropeSample_at (k := 17) (by decide)) (by decide) (by decide) (chunk_ok 40)

end GB

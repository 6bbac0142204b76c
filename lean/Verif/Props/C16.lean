import Verif.Props.C17
import Verif.Proof.SampleTwo

/-!
# C16: `iter_range` yields exactly the range

A slice of the result carries the element, and a start (end) offset when it is the first (last) leaf of the
range.  `iter_range(..)` on an empty tree panics in the code (`unwrap` of `start_cursor()`), see
`C16_unbounded_empty_panics`.
-/

namespace GB
variable {E C D : Type}
open Tree

/-- the slice reported for an entry -/
def C16_slice (start stop : Cursor) (x : Nat × E) : ElemSlice E where
  cursor := ⟨x.1, 0⟩
  elem := x.2
  start := if start.leaf = x.1 then some start.offset else none
  stop := if stop.leaf = x.1 then some stop.offset else none

/-- `start..end` (or `start..=end`) with both cursors in the tree and `start`'s leaf not after `end`'s: the
leaves from `start` to `end` in order, without the last one when the end is exclusive at offset 0. -/
theorem C16_iter_range {B : Trait E C D} {A : Law B} {m : Fill} {h : Nat} {s : Tree E C} {start stop : Cursor} {incl : Bool} {e : E}
    {U M V : List (Nat × E)} (hm : 1 ≤ m.lo) (hi : InvH A m h s) (hh : h ≤ 9) (hc : (abs s).es = U ++ M ++ (stop.leaf, e) :: V)
    (hs : (M ++ [(stop.leaf, e)]).head?.map Prod.fst = some start.leaf) :
    iterRange B s (.included start) (if incl then .included stop else .excluded stop) =
      .ok ((M ++ if stop.offset = 0 ∧ incl = false then [] else [(stop.leaf, e)]).map (C16_slice start stop)) := by
  obtain ⟨lvl, g⟩ := hi.ex
  have := iterRangeCore_spec (incl := incl) g.wf (hi.ne hm) hh hc hs
  cases incl
  · simp only [iterRange, pure_ok, bind_ok, Bool.false_eq_true, if_false]
    rw [this]
    simp only [and_true]
    rfl
  · simp only [iterRange, pure_ok, bind_ok, if_true]
    exact this

/-- The unbounded range yields the whole sequence. -/
theorem C16_iter_all {B : Trait E C D} {A : Law B} {m : Fill} {h : Nat} {s : Tree E C} {a : Nat × E} {M : List (Nat × E)}
    {z : Nat × E} (hm : 1 ≤ m.lo) (hi : InvH A m h s) (hh : h ≤ 9) (hc : (abs s).es = M ++ [z]) (ha : (abs s).es.head? = some a) :
    ∃ R, iterRange B s .unbounded .unbounded = .ok R ∧ R.map (fun x => (x.cursor.leaf, x.elem)) = (abs s).es := by
  obtain ⟨-, -, h1, h2, -⟩ := C17_ends (B := B) hm hi.inv
  have hz : (abs s).es.getLast? = some z := by rw [hc]; simp
  rw [ha] at h1
  rw [hz] at h2
  obtain ⟨lvl, g⟩ := hi.ex
  have := iterRangeCore_spec (incl := true) (start := ⟨a.1, 0⟩) (stop := ⟨z.1, B.rleLen z.2⟩) (U := []) (M := M) (V := []) (e := z.2) g.wf (hi.ne hm) hh
    (by rw [List.nil_append]; exact hc) (by
      show Option.map Prod.fst (M ++ [z]).head? = some a.1
      rw [← hc, ha]; rfl)
  have hrun : iterRange B s .unbounded .unbounded = iterRangeCore s ⟨a.1, 0⟩ ⟨z.1, B.rleLen z.2⟩ true := by
    simp only [iterRange, h1, h2, bind_ok, Option.map_some, unwrap, pure_ok]
  rw [← hrun] at this
  refine ⟨_, this, ?_⟩
  · rw [hc]
    simp only [and_false, if_false, List.map_map, Bool.true_eq_false]
    rw [show (fun x : ElemSlice E => (x.cursor.leaf, x.elem)) ∘ sliceOf ⟨a.1, 0⟩ ⟨z.1, B.rleLen z.2⟩ = id from rfl]
    simp

/-- On an empty tree the unbounded range panics. -/
theorem C16_unbounded_empty_panics {B : Trait E C D} {A : Law B} {m : Fill} {s : Tree E C} (hm : 1 ≤ m.lo) (hi : Inv A m s)
    (he : (abs s).es = []) : iterRange B s .unbounded .unbounded = .error .panic := by
  obtain ⟨-, -, h1, -⟩ := C17_ends (B := B) hm hi
  rw [he] at h1
  simp only [iterRange, h1, bind_ok, List.head?_nil, Option.map_none, unwrap]
  rfl

/-- leaves 3 to 20 of the sample -/
example : ∃ h, h ≤ 9 ∧ iterRange ropeTrait ropeSample (.included ⟨3, 1⟩) (.excluded ⟨20, 0⟩) = .ok
    (((List.range 17).map fun i => (i + 3, (⟨[UInt8.ofNat (i + 3), 1, 2, 0], 3, 1⟩ : GapBuf))).map (C16_slice ⟨3, 1⟩ ⟨20, 0⟩)) := by
  obtain ⟨h, h9, hi⟩ := ropeSample_spec.1.low (by decide) (by rw [ropeSample_spec.2]; decide)
  refine ⟨h, h9, ?_⟩
  have := C16_iter_range (B := ropeTrait) (start := ⟨3, 1⟩) (stop := ⟨20, 0⟩) (incl := false) (by decide) hi h9
    (U := (List.range 3).map fun i => (i, ⟨[UInt8.ofNat i, 1, 2, 0], 3, 1⟩)) (M := (List.range 17).map fun i => (i + 3, ⟨[UInt8.ofNat (i + 3), 1, 2, 0], 3, 1⟩))
    (V := (List.range 9).map fun i => (i + 21, ⟨[UInt8.ofNat (i + 21), 1, 2, 0], 3, 1⟩)) (e := ⟨[20, 1, 2, 0], 3, 1⟩)
    (by rw [ropeSample_spec.2]; rfl) (by rfl)
  simpa using this

example := C16_iter_all (a := (0, chunk 0)) (z := (29, chunk 29)) (by decide) ropeSample_two (by decide) (ropeSample_at (k := 29) (by decide)) (by rw [ropeSample_es]; rfl)

example := C16_unbounded_empty_panics (B := ropeTrait) (A := ropeLaw 4) (m := 5) (by decide) ⟨1, new_inv _ _⟩ (by rw [new_entries])

end GB

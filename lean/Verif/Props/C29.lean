import Verif.Proof.History
import Verif.Proof.SampleTwo

/-!
# C29: node fill bounds and no capacity panic

The arrays of children have 12 slots.  In the model every push beyond the capacity is a panic, so that
`runAll … = .ok s` includes the absence of capacity panics.
-/

namespace GB
variable {E C D : Type}
open Tree

/-- Every node of a valid tree has at most 11 children, a non-root node at least `m.lo + m.d` (on the left
edge at least `m.lo`), and the root of a tree of
more than one level at least 2. -/
theorem C29_fill {B : Trait E C D} {A : Law B} {m : Fill} {h : Nat} {s : Tree E C} (hi : InvH A m h s) {x : Nat} {N : Node C}
    (hx : s.inn.get x = some N) :
    N.children.length ≤ 11 ∧ (x ≠ s.root → m.lo ≤ N.children.length ∧ (¬ LSp s x → m.lo + m.d ≤ N.children.length)) ∧ (x = s.root → 2 ≤ h → 2 ≤ N.children.length) := by
  have := hi.sz x (lnk_isSome.mpr ⟨N, hx⟩) (fun h => h)
  rw [chs_of hx] at this
  exact this

/-- Every valid history from `new()` runs without panic, and at its end every node has at most 11 children and
every non-root node at least 5. -/
theorem C29_history {B : Trait E C D} {A : Law B} {os : List (Op E)} (hv : validAll B A.okE ⟨0, []⟩ os) :
    ∃ s, runAll B (newTree B) os = .ok s ∧ ∀ x N, s.inn.get x = some N →
      N.children.length ≤ 11 ∧ (x ≠ s.root → 5 ≤ N.children.length) := by
  obtain ⟨s, h1, ⟨h, hi⟩, h2⟩ := run_spec (A := A) (m := 5) (by decide) (Or.inl (by decide)) os (newTree B) ⟨1, new_inv A 5⟩
    (by rw [new_entries]; exact hv)
  exact ⟨s, h1, fun x N hx => ⟨(C29_fill hi hx).1, fun hr => ((C29_fill hi hx).2.1 hr).1⟩⟩

/-- With at least five children per node, `n ≥ 2` elements in a tree of `h ≥ 2` levels satisfy `2·5^(h-1) ≤ n`. -/
theorem C29_depth {B : Trait E C D} {A : Law B} {m : Fill} {h : Nat} {s : Tree E C} (hi : InvH A m h s) (h2 : 2 ≤ h) :
    2 * m.lo ^ (h - 1) ≤ (abs s).es.length := by
  obtain ⟨lvl, g⟩ := hi.ex
  exact height_bound g.wf hi.sz h2

example := C29_history (B := ropeTrait) (A := ropeLaw 4)
  (os := [.push ⟨[1, 2, 3, 4], 4, 0⟩, .insertAt ⟨0, 2⟩ ⟨[5, 6, 7, 0], 3, 1⟩]) (by
    refine ⟨⟨by simp [GapBuf.WF], rfl⟩, fun t' h => ?_⟩
    cases h
    exact ⟨⟨⟨by simp [GapBuf.WF], rfl⟩, _, List.mem_singleton.mpr rfl, by decide⟩, fun t' h => trivial⟩)

example : 10 ≤ (abs ropeSample).es.length := C29_depth ropeSample_two (by decide)

/-- the root of the sample -/
example : ∃ N, ropeSample.inn.get ropeSample.root = some N ∧ N.children.length ≤ 11 ∧ 2 ≤ N.children.length := by
  obtain ⟨lvl, g⟩ := ropeSample_two.ex
  obtain ⟨N, hN, -⟩ := g.wf.root
  have h := C29_fill ropeSample_two hN
  exact ⟨N, hN, h.1, h.2.2 rfl (by decide)⟩

end GB

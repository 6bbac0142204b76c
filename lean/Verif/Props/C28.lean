import Verif.Proof.Count

/-!
# C28: no leaked nodes
-/

namespace GB
variable {E C D : Type}
open Tree

/-- reachable from the root along child entries -/
inductive Reach (s : Tree E C) : Idx → Prop
  | root : Reach s (.internal s.root)
  | child {x : Nat} {N : Node C} {c : Child C} : Reach s (.internal x) → s.inn.get x = some N → c ∈ N.children → Reach s c.arena

/-- Every stored node, internal or leaf, is reachable from the root, and everything reachable is stored. -/
theorem C28_reachable {B : Trait E C D} {A : Law B} {m : Fill} {s : Tree E C} (hi : Inv A m s) :
    (∀ x, s.inn.get x ≠ none ↔ Reach s (.internal x)) ∧ (∀ l, s.lf.get l ≠ none ↔ Reach s (.leaf l)) := by
  obtain ⟨h, ⟨lvl, g⟩, sz⟩ := hi
  have w := g.wf
  have step : ∀ p i a, Reach s (.internal p) → Edge s p i a → Reach s a := by
    intro p i a hp he
    obtain ⟨N, hN⟩ := live_of_kid he
    rw [Edge, kids_of hN, List.getElem?_map, Option.map_eq_some_iff] at he
    obtain ⟨c, hc, rfl⟩ := he
    exact .child hp hN (List.mem_of_getElem? hc)
  have inn : ∀ n x, s.inn.get x ≠ none → h - lvl x ≤ n → Reach s (.internal x) := by
    intro n
    induction n with
    | zero =>
      intro x hx hl
      obtain ⟨N, hN⟩ := Option.ne_none_iff_exists'.mp hx
      by_cases hr : x = s.root
      · rw [hr]; exact .root
      · have := w.live_lt hN hr; omega
    | succ n ih =>
      intro x hx hl
      obtain ⟨N, hN⟩ := Option.ne_none_iff_exists'.mp hx
      by_cases hr : x = s.root
      · rw [hr]; exact .root
      · obtain ⟨p, -, he, h3⟩ := w.parent_in hN hr
        have := w.live_lt hN hr
        obtain ⟨P, hP⟩ := live_of_kid he
        exact step p _ _ (ih p (by rw [hP]; simp) (by omega)) he
  have conv : ∀ a, Reach s a → match a with | .internal x => s.inn.get x ≠ none | .leaf l => s.lf.get l ≠ none := by
    intro a ha
    induction ha with
    | root => obtain ⟨N, hN, -⟩ := w.root; simp [hN]
    | @child x N c _ hN hc _ =>
      obtain ⟨i, hi⟩ := List.mem_iff_getElem?.mp hc
      have he : Edge s x i c.arena := by rw [Edge, kids_of hN, List.getElem?_map, hi]; rfl
      cases ha : c.arena with
      | internal y =>
        rw [ha] at he
        obtain ⟨-, M, hM, -⟩ := w.kid_in _ _ _ he
        simp [hM]
      | leaf l =>
        rw [ha] at he
        obtain ⟨-, L, hL, -⟩ := w.kid_lf _ _ _ he
        simp [hL]
  refine ⟨fun x => ⟨fun hx => inn _ x hx (Nat.le_refl _), fun hr => conv _ hr⟩, fun l => ⟨fun hl => ?_, fun hr => conv _ hr⟩⟩
  obtain ⟨L, hL⟩ := Option.ne_none_iff_exists'.mp hl
  obtain ⟨p, i, he⟩ := w.par_lf l L hL
  obtain ⟨P, hP⟩ := live_of_kid he
  exact step p i _ (inn _ p (by rw [hP]; simp) (Nat.le_refl _)) he

/-- `node_len()` is the number of elements plus the number of stored (hence reachable) internal nodes; a tree
without elements has exactly one node. -/
theorem C28_node_len {B : Trait E C D} {A : Law B} {m : Fill} {s : Tree E C} (hm : 1 ≤ m.lo) (hi : Inv A m s) :
    nodeLen s = s.inn.len + (abs s).es.length ∧ ((abs s).es = [] → nodeLen s = 1) := by
  obtain ⟨h, hi⟩ := hi
  have h1 := lf_len hi
  refine ⟨by rw [nodeLen, h1], fun hn => ?_⟩
  rw [nodeLen, h1, inn_len_empty hi hm hn, hn]
  rfl

/-- Over histories: whenever a valid history from `new()` has removed every element, `node_len()` is 1. -/
theorem C28_emptied {B : Trait E C D} {A : Law B} {os : List (Op E)} (hv : validAll B A.okE ⟨0, []⟩ os) :
    ∃ s, runAll B (newTree B) os = .ok s ∧ specAll B ⟨0, []⟩ os = .ok (abs s) ∧ ((abs s).es = [] → nodeLen s = 1) := by
  obtain ⟨s, h1, hi, h2⟩ := run_spec (A := A) (m := 5) (by decide) (Or.inl (by decide)) os (newTree B) ⟨1, new_inv A 5⟩
    (by rw [new_entries]; exact hv)
  rw [new_entries] at h2
  exact ⟨s, h1, h2, (C28_node_len (by decide) hi).2⟩

example := C28_reachable ropeSample_spec.1
example := C28_node_len (by decide) ropeSample_spec.1
example := C28_emptied (B := ordTrait Nat Nat) (A := ordLaw Nat Nat) (os := [.push (1, 1), .push (2, 2), .remove ⟨0, 0⟩, .remove ⟨1, 0⟩])
  ⟨trivial, fun _ _ => ⟨trivial, fun _ _ => ⟨trivial, fun _ _ => ⟨trivial, fun _ _ => trivial⟩⟩⟩⟩

end GB

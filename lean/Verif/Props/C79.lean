import Verif.Proof.Pieces
import Verif.Proof.SampleTwo
import Verif.Props.C07

/-!
# C79: `visit_previous_caches` visits as few caches as possible

`Shape.pieces` (Verif.Spec.Pieces) lists all the caches stored in a tree with the positions of the elements they stand for.
-/

namespace GB
variable {E C D : Type}
open Tree

/-- A stored cache is the combination of the caches of the elements at its positions, of which there is at least one. -/
theorem C79_pieces {B : Trait E C D} {A : Law B} {m : Fill} {h : Nat} {s : Tree E C} (hm : 1 ≤ m.lo) (hi : InvH A m h s) :
    ∃ t, shapeOf s h (.internal s.root) = some t ∧ Shape.elems h t = (abs s).es.map Prod.snd ∧
      ∀ p ∈ Shape.pieces h 0 t, p.lo < p.hi ∧ p.hi ≤ (abs s).es.length ∧
        p.cache = A.total ((((abs s).es.take p.hi).drop p.lo).map fun x => B.elemCache x.2) := by
  obtain ⟨lvl, g⟩ := hi.ex
  obtain ⟨t, -, ht, -⟩ := updateFilter_spec g.wf (fun (u : Unit) (c : C) => (u, c, true)) (fun u (e : E) => (u, e)) ()
  obtain ⟨i, hr⟩ := g.wf.root'
  have hr : AtLvl s lvl h (.internal s.root) := ⟨by rw [hr]; simp, g.wf.root_lvl⟩
  have hel : Shape.elems h t = (abs s).es.map Prod.snd := shape_root g.wf ht
  refine ⟨t, ht, hel, fun p hp => ?_⟩
  obtain ⟨-, h1, h2⟩ := pieces_bounds h 0 t (shape_solid g.wf (hi.ne hm) h _ t hr ht).1 p hp
  rw [hel, List.length_map] at h2
  refine ⟨h1, by omega, ?_⟩
  rw [pieces_total h 0 t [] [] (shape_summed g (hi.ne hm) h _ t hr ht) (es := (abs s).es.map Prod.snd) (by simp [hel]) rfl p hp,
    ← List.map_take, ← List.map_drop, List.map_map]
  rfl

/-- The visited caches are stored caches that follow each other from the first element to the element of the cursor, without gap or overlap.
No choice of stored caches that stand for just the elements before the cursor, in whatever order and with overlaps if need be, has fewer
members. -/
theorem C79_least {B : Trait E C D} {A : Law B} {m : Fill} {h : Nat} {s : Tree E C} {c : Cursor} {e : E} {U V : List (Nat × E)} (hm : 1 ≤ m.lo)
    (hi : InvH A m h s) (hh : h ≤ 9) (hc : (abs s).es = U ++ (c.leaf, e) :: V) :
    ∃ t ps, shapeOf s h (.internal s.root) = some t ∧ visitPrevCaches s c = .ok (ps.map Piece.cache, (e, c.offset)) ∧
      (∀ p ∈ ps, p ∈ Shape.pieces h 0 t) ∧ Adjoin 0 ps U.length ∧
      ∀ qs, Covers h t U.length qs → ps.length ≤ qs.length := by
  obtain ⟨lvl, g⟩ := hi.ex
  obtain ⟨t, -, ht, -⟩ := updateFilter_spec g.wf (fun (u : Unit) (c : C) => (u, c, true)) (fun u (e : E) => (u, e)) ()
  obtain ⟨i, hr⟩ := g.wf.root'
  have hr : AtLvl s lvl h (.internal s.root) := ⟨by rw [hr]; simp, g.wf.root_lvl⟩
  have hel : Shape.elems h t = (abs s).es.map Prod.snd := shape_root g.wf ht
  obtain ⟨l, o⟩ := c
  refine ⟨t, Shape.before U.length h 0 t, ht, visitPrev_pieces g hh ht hc, prefix_mem h 0 t, prefix_tiles h 0 t (Nat.zero_le _) ?_, ?_⟩
  · rw [hel, hc]
    simp
  · intro qs hq
    exact prefix_least h 0 t (shape_solid g.wf (hi.ne hm) h _ t hr ht).1 qs hq.1 (fun i _ h2 => hq.2 i h2)

/-- At most ten caches for each level. -/
theorem C79_count {B : Trait E C D} {A : Law B} {m : Fill} {h : Nat} {s : Tree E C} {c : Cursor} {e : E} {U V : List (Nat × E)}
    (hi : InvH A m h s) (hh : h ≤ 9) (hc : (abs s).es = U ++ (c.leaf, e) :: V) {cs : List C} {y : E × Nat} (hv : visitPrevCaches s c = .ok (cs, y)) :
    cs.length ≤ 10 * h := by
  obtain ⟨⟨lvl, g⟩, sz⟩ := id hi
  obtain ⟨l, o⟩ := c
  have he : elm s l = some e := (entries_mem g.wf).mp (show (l, e) ∈ (abs s).es by rw [hc]; simp)
  refine visitPrev_count g.wf hh ?_ (elm_live he) hv
  intro x
  cases hx : s.inn.get x with
  | none => simp [chs, hx]
  | some N => exact (sz x (by rw [lnk_of hx]; simp) (fun h => h)).1

/-- If a whole child of the root (or any stored subtree) lies at the beginning and the cursor is in the leaf behind it, its cache is the only one that
is visited. -/
theorem C79_one {B : Trait E C D} {A : Law B} {m : Fill} {h : Nat} {s : Tree E C} {c : Cursor} {e : E} {U V : List (Nat × E)} (hm : 1 ≤ m.lo)
    (hi : InvH A m h s) (hh : h ≤ 9) (hc : (abs s).es = U ++ (c.leaf, e) :: V) {t : Shape C E h} (ht : shapeOf s h (.internal s.root) = some t)
    {p : Piece C} (hp : p ∈ Shape.pieces h 0 t) (h0 : p.lo = 0) (h1 : p.hi = U.length) :
    visitPrevCaches s c = .ok ([p.cache], (e, c.offset)) := by
  obtain ⟨t', ht', hel, hpc⟩ := C79_pieces hm hi
  obtain ⟨t'', ps, ht'', k1, k2, k3, k4⟩ := C79_least hm hi hh hc
  rw [ht] at ht' ht''
  cases ht'
  cases ht''
  have hlen := k4 [p] ⟨by simp [hp, h1], fun i hi => ⟨p, by simp, by omega, by omega⟩⟩
  obtain ⟨p1, p2, p3⟩ := hpc p hp
  match ps, k1, k2, k3, hlen with
  | [], _, _, k3, _ => have : 0 = U.length := k3; omega
  | [q], k1, k2, k3, _ =>
    obtain ⟨q1, q2⟩ := k3
    have q2 : q.hi = U.length := q2
    obtain ⟨-, -, q5⟩ := hpc q (k2 q (by simp))
    rw [k1, List.map_cons, List.map_nil, q5, p3, q1, h0, q2, h1]
  | _ :: _ :: _, _, _, _, hlen => simp at hlen

/-! Cases: the rope sample (thirty chunks, two levels) with a cursor in chunk 17; the first chunk as the only one before the cursor. -/

example := C79_pieces (by decide) ropeSample_two

example := C79_least (c := ⟨17, 2⟩) (by decide) ropeSample_two (by decide) (ropeSample_at (k := 17) (by decide))

example : ∃ cs, visitPrevCaches ropeSample ⟨17, 2⟩ = .ok (cs, (chunk 17, 2)) ∧ cs.length ≤ 20 := by
  obtain ⟨t, ps, -, h, -⟩ := C79_least (c := ⟨17, 2⟩) (by decide) ropeSample_two (by decide) (ropeSample_at (k := 17) (by decide))
  exact ⟨_, h, C79_count ropeSample_two (by decide) (ropeSample_at (k := 17) (by decide)) h⟩

/-- the one cache before chunk 1 -/
example : ∃ p : Piece Int, p.lo = 0 ∧ p.hi = 1 ∧ visitPrevCaches ropeSample ⟨1, 2⟩ = .ok ([p.cache], (chunk 1, 2)) := by
  have hc := ropeSample_at (k := 1) (by decide)
  obtain ⟨t, ht, -, hpc⟩ := C79_pieces (by decide) ropeSample_two
  obtain ⟨t', ps, ht', -, k2, k3, -⟩ := C79_least (c := ⟨1, 2⟩) (by decide) ropeSample_two (by decide) hc
  rw [ht] at ht'
  cases ht'
  match ps, k2, k3 with
  | [], _, k3 => cases (show (0 : Nat) = 1 from k3)
  | [p], k2, k3 =>
    have h2 : p.hi = 1 := k3.2
    exact ⟨p, k3.1, h2, C79_one (by decide) ropeSample_two (by decide) hc ht (k2 p (by simp)) k3.1 (by rw [h2]; rfl)⟩
  | p :: q :: ps, k2, k3 =>
    obtain ⟨h1, h2, h3⟩ := k3
    have hp := (hpc p (k2 p (by simp))).1
    have hq := (hpc q (k2 q (by simp))).1
    have key : ∀ (ps : List (Piece Int)) (a b : Nat), (∀ p ∈ ps, p.lo < p.hi) → Adjoin a ps b → a ≤ b := by
      intro ps
      induction ps with
      | nil => intro a b _ h; exact Nat.le_of_eq h
      | cons p ps ih =>
        intro a b hp h
        have h1 := ih p.hi b (fun q hq => hp q (by simp [hq])) h.2
        have h2 := hp p (by simp)
        have h3 := h.1
        omega
    have h4 : q.hi ≤ 1 := key ps q.hi 1 (fun r hr => (hpc r (k2 r (by simp [hr]))).1) h3
    omega

/-- a nested list of two levels -/
private def four : Shape Nat Nat 2 := show List (Nat × List (Nat × Nat)) from [(20, [(7, 7), (13, 13)]), (9, [(4, 4), (5, 5)])]

private theorem four_pieces : Shape.pieces 2 0 four = [⟨20, 0, 2⟩, ⟨7, 0, 1⟩, ⟨13, 1, 2⟩, ⟨9, 2, 4⟩, ⟨4, 2, 3⟩, ⟨5, 3, 4⟩] := rfl

/-- two caches stand for its first three elements -/
example : Covers 2 four 3 [⟨20, 0, 2⟩, ⟨4, 2, 3⟩] := by
  refine ⟨by rw [four_pieces]; simp, ?_⟩
  intro i hi
  by_cases h : i < 2
  · exact ⟨⟨20, 0, 2⟩, by simp, Nat.zero_le _, h⟩
  · exact ⟨⟨4, 2, 3⟩, by simp, Nat.le_of_not_lt h, hi⟩

/-- one does not -/
example (p : Piece Nat) : ¬ Covers 2 four 3 [p] := by
  intro ⟨h1, h2⟩
  obtain ⟨h1, h3⟩ := h1 p (by simp)
  obtain ⟨q, hq, a1, a2⟩ := h2 0 (by decide)
  obtain ⟨r, hr, b1, b2⟩ := h2 2 (by decide)
  simp only [List.mem_singleton] at hq hr
  subst hq hr
  rw [four_pieces] at h1
  simp only [List.mem_cons, List.not_mem_nil, or_false] at h1
  rcases h1 with rfl | rfl | rfl | rfl | rfl | rfl <;> simp at a1 a2 b1 b2 h3

end GB

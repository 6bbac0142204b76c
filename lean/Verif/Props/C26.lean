import Verif.Proof.FromIterEnd
import Verif.Props.C01
import Verif.Props.C04
import Verif.Props.C07
import Verif.Props.C08

/-!
# C26: `from_iter`
-/

namespace GB
variable {E C D X : Type}
open Tree

/-- `collect` on any finite list of well-formed elements: no panic, a valid tree with the elements in order; the leaves are
numbered in order.  The last node of every level may be left with a single child, so the occupancy is only 1; every level
but the first needs more than ten times the elements of the level below, so the tree is shallow. -/
theorem C26_from_iter {B : Trait E C D} (A : Law B) (data : List E) (hok : ∀ e ∈ data, A.okE e) :
    ∃ s h, fromIter B data = .ok s ∧ InvH A 1 h s ∧ abs s = ⟨data.length, (List.range data.length).zip data⟩ ∧
      (2 ≤ h → 10 ^ (h - 1) < data.length) := by
  obtain ⟨s, h, h1, h2, h3, h4, h5⟩ := fromIter_spec A data hok
  exact ⟨s, h, h1, h2, by rw [abs, h3, h4], h5⟩

theorem C26_from_iter_elems {B : Trait E C D} (A : Law B) (data : List E) (hok : ∀ e ∈ data, A.okE e) :
    ∃ s, fromIter B data = .ok s ∧ Inv A 1 s ∧ (abs s).es.map Prod.snd = data ∧
      (data ≠ [] → s.rootCache = A.total (data.map B.elemCache)) := by
  obtain ⟨s, h, h1, h2, h3, -⟩ := C26_from_iter A data hok
  have he : (abs s).es.map Prod.snd = data := by
    rw [h3]
    exact List.map_snd_zip (by simp)
  refine ⟨s, h1, ⟨h, h2⟩, he, ?_⟩
  intro hne
  rw [C07_root_cache (Nat.le_refl 1) ⟨h, h2⟩ (by intro h; rw [h] at he; exact hne he.symm)]
  congr 1
  rw [← he, List.map_map]
  simp

/-- Iterating over the collected tree gives the list back, for up to 10⁹ elements (paths have a fixed capacity). -/
theorem C26_iter {B : Trait E C D} (A : Law B) (data : List E) (hok : ∀ e ∈ data, A.okE e) (hn : data.length ≤ 10 ^ 9) :
    ∃ s, fromIter B data = .ok s ∧ iter s = .ok data := by
  obtain ⟨s, h, h1, h2, h3, h4⟩ := C26_from_iter A data hok
  have h9 : h ≤ 9 := by
    apply Decidable.byContradiction
    intro hc
    have := h4 (by omega)
    have : 10 ^ 9 ≤ 10 ^ (h - 1) := Nat.pow_le_pow_right (by decide) (by omega)
    omega
  refine ⟨s, h1, ?_⟩
  rw [C08_iter (Nat.le_refl 1) h2 h9, h3]
  exact congrArg _ (List.map_snd_zip (by simp))

/-- The rope: collected chunks give their concatenation. -/
theorem C26_rope (cap : Nat) (data : List GapBuf) (hok : ∀ e ∈ data, (ropeLaw cap).okE e) :
    ∃ s, fromIter ropeTrait data = .ok s ∧ Inv (ropeLaw cap) 1 s ∧ content GapBuf.toVec (abs s).es = data.flatMap GapBuf.toVec ∧
      s.rootCache = (data.flatMap GapBuf.toVec).length := by
  obtain ⟨s, h1, h2, h3, -⟩ := C26_from_iter_elems (ropeLaw cap) data hok
  have e : content GapBuf.toVec (abs s).es = data.flatMap GapBuf.toVec := by
    rw [← h3]
    generalize (abs s).es = es
    simp [content, List.flatMap_map]
  exact ⟨s, h1, h2, e, by rw [C07_rope_length (Nat.le_refl 1) h2, e]⟩

/-- Elements collected from 11 keys: the second leaf parent has a single child.  Removing that element gives an empty node,
whose cache `OrdTrait` leaves alone, and taking out the empty node does not recompute the caches above: the root cache
still contains the removed key, and `check()` panics.  So on collected trees `remove_leaf` does not keep the tree valid. -/
theorem C26_remove_after_collect_false :
    ∃ s s', fromIter (ordTrait Nat Nat) ((List.range 11).map fun i => (i, i)) = .ok s ∧ Inv (ordLaw Nat Nat) 1 s ∧ check (ordTrait Nat Nat) s = .ok () ∧
      removeLeaf (ordTrait Nat Nat) s ⟨10, 0⟩ = .ok (some (10, 10), s') ∧
      (abs s').es.map Prod.snd = (List.range 10).map (fun i => (i, i)) ∧ s'.rootCache = some (0, 10) ∧
      check (ordTrait Nat Nat) s' = .error .panic := by
  obtain ⟨s, h1, h2, -⟩ := C26_from_iter_elems (ordLaw Nat Nat) ((List.range 11).map fun i => (i, i)) (fun _ _ => trivial)
  have h0 : ∃ s s', fromIter (ordTrait Nat Nat) ((List.range 11).map fun i => (i, i)) = .ok s ∧ check (ordTrait Nat Nat) s = .ok () ∧
      removeLeaf (ordTrait Nat Nat) s ⟨10, 0⟩ = .ok (some (10, 10), s') ∧
      (abs s').es.map Prod.snd = (List.range 10).map (fun i => (i, i)) ∧ s'.rootCache = some (0, 10) ∧
      check (ordTrait Nat Nat) s' = .error .panic := ⟨_, _, rfl, rfl, rfl, rfl, rfl, rfl⟩
  obtain ⟨t, s', k1, k2⟩ := h0
  rw [h1] at k1
  cases k1
  exact ⟨s, s', h1, h2, k2⟩

/-- With the additional law (the combination of no caches is neutral; true of the rope) removal from a collected tree is
right. -/
theorem C26_remove_after_collect {B : Trait E C D} {A : Law B} (hE : LawE A) {data : List E} (hok : ∀ e ∈ data, A.okE e) {U V : List E} {e : E}
    (hd : data = U ++ e :: V) (o : Nat) :
    ∃ s s', fromIter B data = .ok s ∧ removeLeaf B s ⟨U.length, o⟩ = .ok (some e, s') ∧ Inv A 1 s' ∧ (abs s').es.map Prod.snd = U ++ V := by
  obtain ⟨s, h, h1, h2, h3, -⟩ := C26_from_iter A data hok
  have hz : (abs s).es = (List.range U.length).zip U ++ (U.length, e) :: (List.range' (U.length + 1) V.length).zip V := by
    rw [h3, hd]
    simp only [List.length_append, List.length_cons]
    rw [List.range_eq_range', List.range_eq_range', ← List.range'_append_1, List.range'_succ, Nat.zero_add]
    rw [List.zip_append (by simp)]
    rfl
  obtain ⟨s', k1, k2, k3⟩ := C04_remove_leaf (cur := ⟨U.length, o⟩) ⟨Nat.le_refl 1, by decide⟩ (.inr hE) ⟨h, h2⟩ hz
  refine ⟨s, s', h1, k1, k2, ?_⟩
  rw [k3]
  show List.map Prod.snd (_ ++ _) = _
  rw [List.map_append, List.map_snd_zip (by simp), List.map_snd_zip (by simp)]

theorem c26_ok : (ropeLaw 4).okE ⟨[1, 2, 3, 4], 3, 1⟩ := by
  show GapBuf.WF _ ∧ _
  exact ⟨by simp [GapBuf.WF], rfl⟩

theorem c26_all (n : Nat) : ∀ e ∈ List.replicate n (⟨[1, 2, 3, 4], 3, 1⟩ : GapBuf), (ropeLaw 4).okE e := by
  intro e he
  rw [List.eq_of_mem_replicate he]
  exact c26_ok

/-! The hypotheses are met by 25 chunks of a rope (three levels are not needed, two are), and pushing onto the collected tree
is covered by C01. -/

example := C26_rope 4 (List.replicate 25 ⟨[1, 2, 3, 4], 3, 1⟩) (c26_all 25)

example : ∃ s c s', fromIter ropeTrait (List.replicate 25 ⟨[1, 2, 3, 4], 3, 1⟩) = .ok s ∧ push ropeTrait s ⟨[1, 2, 3, 4], 3, 1⟩ = .ok (c, s') ∧ Inv (ropeLaw 4) 1 s' := by
  obtain ⟨s, h1, h2, -⟩ := C26_rope 4 (List.replicate 25 ⟨[1, 2, 3, 4], 3, 1⟩) (c26_all 25)
  obtain ⟨c, s', k1, k2, -⟩ := C01_push (e := (⟨[1, 2, 3, 4], 3, 1⟩ : GapBuf)) (by decide) h2 c26_ok
  exact ⟨s, c, s', h1, k1, k2⟩

example := C26_remove_after_collect (ropeLawE 4) (c26_all 21) (U := List.replicate 20 ⟨[1, 2, 3, 4], 3, 1⟩) (V := []) rfl 0

example := C26_from_iter (ropeLaw 4) (List.replicate 25 ⟨[1, 2, 3, 4], 3, 1⟩) (c26_all 25)

example := C26_from_iter_elems (ropeLaw 4) (List.replicate 25 ⟨[1, 2, 3, 4], 3, 1⟩) (c26_all 25)

example : ∃ s, fromIter ropeTrait (List.replicate 25 ⟨[1, 2, 3, 4], 3, 1⟩) = .ok s ∧ iter s = .ok (List.replicate 25 ⟨[1, 2, 3, 4], 3, 1⟩) :=
  C26_iter (ropeLaw 4) (List.replicate 25 ⟨[1, 2, 3, 4], 3, 1⟩) (c26_all 25) (by rw [List.length_replicate]; decide)

end GB

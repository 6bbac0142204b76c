import Verif.Proof.PathCap
import Verif.Proof.SpinePush
import Verif.Proof.Content
import Verif.Props.C08

/-!
# C46: how many elements a tree can hold before paths overflow

`type NodePath = HeaplessVec<Idx, 10>` (src/lib.rs:120) holds ten entries, one per level including the leaf, and
every `push` on it is unwrapped.  Modifying the tree does not need paths, so the tree can grow higher than that; from
then on reading it panics.  The limit is exact.
-/

namespace GB
variable {E C D : Type}
open Tree

/-- On a valid tree of ten or more levels of internal nodes, every operation that begins with a path panics. -/
theorem C46_too_high {B : Trait E C D} {A : Law B} {m : Fill} {h : Nat} {s : Tree E C} (hm : 1 ≤ m.lo) (hi : InvH A m h s) (hh : 10 ≤ h)
    (hne : (abs s).es ≠ []) :
    iter s = .error .panic ∧
    ∀ x ∈ (abs s).es, ∀ o,
      visitPrevCaches s ⟨x.1, o⟩ = .error .panic ∧
      ∀ stop incl, iterRangeCore s ⟨x.1, o⟩ stop incl = .error .panic := by
  have ne := hi.ne hm
  have hn : order s ≠ [] := fun h => hne ((abs_nil hi).mpr h)
  obtain ⟨lvl, g⟩ := hi.ex
  refine ⟨?_, ?_⟩
  · rw [iter, firstPath_full g.wf ne hh hn]
    rfl
  · intro x hx o
    have hx : x.1 ∈ order s := by rw [← entries_fst g.wf]; exact List.mem_map_of_mem hx
    have hp := getPath_full g.wf hh ((mem_order g.wf).mp hx)
    refine ⟨?_, fun stop incl => ?_⟩
    · rw [visitPrevCaches, hp]; rfl
    · rw [iterRangeCore, hp]; rfl

/-- The exact limit for trees built by `push`: whatever is pushed, `push` never fails, and afterwards `iter` works if
and only if the tree holds fewer than `2 * 6 ^ 9 = 20 155 392` elements. -/
theorem C46_push_iter {B : Trait E C D} (A : Law B) (es : List E) (hes : ∀ e ∈ es, A.okE e) :
    ∃ s, pushList B (newTree B) es = .ok s ∧ Inv A 6 s ∧
      ((abs s).es.length < 20155392 → iter s = .ok ((abs s).es.map Prod.snd)) ∧
      (20155392 ≤ (abs s).es.length → iter s = .error .panic) := by
  obtain ⟨s, h1, ⟨h, hi⟩, pk⟩ := pushList_packed (A := A) (m := 6) (by decide) (by decide) es (newTree B)
    ⟨1, new_inv A 6⟩ (new_packed B) hes
  refine ⟨s, h1, ⟨h, hi⟩, ?_, ?_⟩
  · intro hlt
    obtain ⟨lvl, g⟩ := hi.ex
    refine iter_spec g.wf (hi.ne (by decide)) ?_
    apply Nat.le_of_not_lt
    intro h9
    have hb : 2 * 6 ^ (h - 1) ≤ _ := height_bound g.wf hi.sz (by omega)
    have hpow : 6 ^ 9 ≤ 6 ^ (h - 1) := Nat.pow_le_pow_right (by omega) (by omega)
    have : (entries s).length < 20155392 := hlt
    omega
  · intro hge
    obtain ⟨lvl, g⟩ := hi.ex
    have hge : 20155392 ≤ (entries s).length := hge
    refine (C46_too_high (by decide) hi ?_ ?_).1
    · apply Nat.le_of_not_lt
      intro h9
      have hb := packed_length (m := 6) (by decide) g.wf hi.sz pk
      have hpow : 6 ^ h ≤ 6 ^ 9 := Nat.pow_le_pow_right (by omega) (by omega)
      omega
    · intro he
      have : entries s = [] := he
      rw [this] at hge
      simp at hge

/-- Elements that never merge: the limit is on the number of pushes. -/
theorem C46_push_limit {B : Trait E C D} (A : Law B) (es : List E) (hes : ∀ e ∈ es, A.okE e)
    (hno : ∀ x ∈ es, ∀ y ∈ es, B.canMerge x y = false) :
    ∃ s, pushList B (newTree B) es = .ok s ∧ Inv A 6 s ∧ (abs s).es.map Prod.snd = es ∧
      (es.length < 20155392 → iter s = .ok es) ∧ (20155392 ≤ es.length → iter s = .error .panic) := by
  obtain ⟨s, h1, h2, h3, h4⟩ := C46_push_iter A es hes
  obtain ⟨s', k1, k2, k3⟩ := pushList_spec (A := A) (m := 6) (by decide) (by decide) (· ∈ es) (fun x y hx hy => hno x hx y hy)
    es (newTree B) ⟨1, new_inv A 6⟩ (fun e he => ⟨he, hes e he⟩) (by rw [new_entries]; simp)
  rw [h1] at k1
  cases k1
  have hmap : (abs s).es.map Prod.snd = es := by
    rw [k3, new_entries]
    simp only [List.nil_append, List.map_map]
    show es.zipIdx.map Prod.fst = es
    exact List.zipIdx_map_fst 0 es
  have hlen : (abs s).es.length = es.length := by rw [← hmap, List.length_map]
  rw [hlen] at h3 h4
  rw [hmap] at h3
  exact ⟨s, h1, h2, hmap, h3, h4⟩

/-- So reading is not safe at every size: a tree of 20 155 392 full chunks, built by `push` alone and satisfying the
invariant, on which `iter` panics. -/
theorem C46_iter_panics : ∃ s : Tree GapBuf Int,
    pushList ropeTrait (newTree ropeTrait) (List.replicate 20155392 (⟨[1, 2, 3, 4], 4, 0⟩ : GapBuf)) = .ok s ∧
      Inv (ropeLaw 4) 6 s ∧ iter s = .error .panic := by
  obtain ⟨s, h1, h2, -, -, h5⟩ := C46_push_limit (ropeLaw 4) (List.replicate 20155392 (⟨[1, 2, 3, 4], 4, 0⟩ : GapBuf))
    (by
      intro e he
      rw [(List.mem_replicate.mp he).2]
      exact ⟨by simp [GapBuf.WF], rfl⟩)
    (by
      intro x hx y hy
      rw [(List.mem_replicate.mp hx).2, (List.mem_replicate.mp hy).2]
      rfl)
  exact ⟨s, h1, h2, h5 (by rw [List.length_replicate]; exact Nat.le_refl _)⟩

/-- one chunk fewer is fine -/
example : ∃ s : Tree GapBuf Int,
    pushList ropeTrait (newTree ropeTrait) (List.replicate 20155391 (⟨[1, 2, 3, 4], 4, 0⟩ : GapBuf)) = .ok s ∧
      iter s = .ok (List.replicate 20155391 ⟨[1, 2, 3, 4], 4, 0⟩) := by
  obtain ⟨s, h1, -, -, h4, -⟩ := C46_push_limit (ropeLaw 4) (List.replicate 20155391 (⟨[1, 2, 3, 4], 4, 0⟩ : GapBuf))
    (by
      intro e he
      rw [(List.mem_replicate.mp he).2]
      exact ⟨by simp [GapBuf.WF], rfl⟩)
    (by
      intro x hx y hy
      rw [(List.mem_replicate.mp hx).2, (List.mem_replicate.mp hy).2]
      rfl)
  exact ⟨s, h1, h4 (by rw [List.length_replicate]; decide)⟩

example := C46_push_iter (ropeLaw 4) (List.replicate 71 (⟨[1, 2, 3, 4], 4, 0⟩ : GapBuf)) (fun e he => by
  cases List.eq_of_mem_replicate he; exact ⟨by simp [GapBuf.WF], rfl⟩)

/-- on that rope `visit_previous_caches` panics at every leaf -/
example : ∃ s : Tree GapBuf Int, Inv (ropeLaw 4) 6 s ∧ ∀ x ∈ (abs s).es, visitPrevCaches s ⟨x.1, 0⟩ = .error .panic := by
  obtain ⟨s, -, ⟨h, hi⟩, h2⟩ := C46_iter_panics
  have hh : 10 ≤ h := by
    apply Decidable.byContradiction
    intro hc
    have h3 := C08_iter (by decide) hi (by omega)
    rw [h2] at h3
    cases h3
  refine ⟨s, ⟨h, hi⟩, fun x hx => ((C46_too_high (by decide) hi hh (List.ne_nil_of_mem hx)).2 x hx 0).1⟩

end GB

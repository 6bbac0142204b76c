import Verif.Proof.FilterMutSpec
import Verif.Props.C07
import Verif.Proof.SampleTwo

/-!
# C42: `update_cache_and_elem_with_filter`

`Shape.visit` (Verif.Spec.Shape) is the traversal of a nested list with two closures that share a state: at a node the
filter runs on all its caches from left to right, then the accepted subtrees are visited, the last one first.
`shapeOf` reads a tree as a nested list.
-/

namespace GB
variable {E C D σ : Type}
open Tree

/-- For every filter and every function, with any side effects: no panic, and the result is the traversal of the nested
list.  No node or leaf is added, removed or moved, and the root cache is not touched. -/
theorem C42_any {B : Trait E C D} {A : Law B} {m : Fill} {h : Nat} {s : Tree E C} (hi : InvH A m h s) (f : σ → C → σ × C × Bool) (g : σ → E → σ × E) (st : σ) :
    ∃ t s', shapeOf s h (.internal s.root) = some t ∧ Shape.elems h t = (abs s).es.map Prod.snd ∧
      updateCacheAndElemWithFilter f g st s = .ok ((Shape.visit f g h st t).1, s') ∧
      shapeOf s' h (.internal s'.root) = some (Shape.visit f g h st t).2 ∧
      (abs s').es.map Prod.fst = (abs s).es.map Prod.fst ∧ (abs s').es.map Prod.snd = Shape.elems h (Shape.visit f g h st t).2 ∧
      (abs s').next = (abs s).next ∧ s'.rootCache = s.rootCache := by
  obtain ⟨lvl, gd⟩ := hi.ex
  obtain ⟨t, s', k1, k2, k3, k4, k5⟩ := updateFilter_spec gd.wf f g st
  have w' := k4.wf gd.wf
  refine ⟨t, s', k1, shape_root gd.wf k1, k2, k3, ?_, (shape_root w' k3).symm, k4.lfitems, k5⟩
  show (entries s').map Prod.fst = (entries s).map Prod.fst
  rw [entries_fst w', entries_fst gd.wf, k4.order]

/-- For a filter `p` and an update `v` without side effects: `v` is called exactly on the elements all of whose caches are
accepted, once each, from the last to the first; the filter is called once on every cache whose ancestors are accepted;
exactly these caches and elements are replaced. -/
theorem C42_filtered {B : Trait E C D} {A : Law B} {m : Fill} {h : Nat} {s : Tree E C} (hi : InvH A m h s) (p : C → Bool) (u : C → C) (v : E → E) :
    ∃ t s' log, shapeOf s h (.internal s.root) = some t ∧
      updateCacheAndElemWithFilter (logF p u) (logG v) ([], []) s = .ok ((log, (Shape.picked p h t).reverse), s') ∧
      log.Perm (Shape.asked p h t) ∧
      shapeOf s' h (.internal s'.root) = some (Shape.replace p u v h t) := by
  obtain ⟨t, s', k1, -, k2, k3, -⟩ := C42_any hi (logF p u) (logG v) ([], [])
  obtain ⟨q1, q2, q3⟩ := visit_log p u v h t ([], [])
  refine ⟨t, s', (Shape.visit (logF p u) (logG v) h ([], []) t).1.1, k1, ?_, by simpa using q3, by rw [k3, q1]⟩
  rw [k2]
  congr 2
  exact Prod.ext rfl (by rw [q2]; simp)

/-- With a filter that accepts everything: `v` is called on every element exactly once (from the last to the first), the
sequence becomes the image under `v` with the same leaf indices, and the filter runs exactly once on every cache that is
stored in a node. -/
theorem C42_all {B : Trait E C D} {A : Law B} {m : Fill} {s : Tree E C} (hi : Inv A m s) (u : C → C) (v : E → E) :
    ∃ n t s' log, shapeOf s n (.internal s.root) = some t ∧ Shape.elems n t = (abs s).es.map Prod.snd ∧
      updateCacheAndElemWithFilter (logF (fun _ => true) u) (logG v) ([], []) s = .ok ((log, ((abs s).es.map Prod.snd).reverse), s') ∧
      log.Perm (Shape.caches n t) ∧
      abs s' = ⟨(abs s).next, (abs s).es.map fun x => (x.1, v x.2)⟩ ∧
      ∃ t', shapeOf s' n (.internal s'.root) = some t' ∧ Shape.caches n t' = (Shape.caches n t).map u ∧ s'.rootCache = s.rootCache := by
  obtain ⟨h, hi⟩ := hi
  obtain ⟨t, s', k1, k2, k3, k4, k5, k6, k7, k8⟩ := C42_any hi (logF (fun _ => true) u) (logG v) ([], [])
  obtain ⟨q1, q2, q3⟩ := visit_log (fun _ => true) u v h t ([], [])
  have hp := picked_all (p := fun _ : C => true) (fun _ => rfl) h t
  have hr := replace_all (p := fun _ : C => true) (fun _ => rfl) u v h t
  refine ⟨h, t, s', (Shape.visit (logF (fun _ => true) u) (logG v) h ([], []) t).1.1, k1, k2, ?_, ?_, ?_, ?_⟩
  · rw [k3, ← k2, ← hp.1]
    congr 2
    exact Prod.ext rfl (by rw [q2]; simp)
  · rw [← hp.2]; simpa using q3
  · rw [q1, hr.1, k2] at k6
    suffices hes : (abs s').es = (abs s).es.map fun x => (x.1, v x.2) by
      show Seq.mk _ _ = _
      exact congr (congrArg Seq.mk k7) hes
    generalize (abs s').es = es' at *
    generalize (abs s).es = es at *
    clear k2 k3 k7
    induction es' generalizing es with
    | nil => cases es with
      | nil => rfl
      | cons => cases k5
    | cons x xs ih => cases es with
      | nil => cases k5
      | cons y ys =>
        simp only [List.map_cons, List.cons.injEq] at k5 k6 ⊢
        exact ⟨Prod.ext k5.1 k6.1, ih ys k5.2 k6.2⟩
  · exact ⟨_, k4, by rw [q1]; exact hr.2, k8⟩

/-- If the closures change no cache, the tree stays valid. -/
theorem C42_neutral {B : Trait E C D} {A : Law B} {m : Fill} {s : Tree E C} (hi : Inv A m s) {f : σ → C → σ × C × Bool} {g : σ → E → σ × E}
    (hf : ∀ st c, (f st c).2.1 = c) (hg : ∀ st e, A.okE e → A.okE (g st e).2 ∧ B.elemCache (g st e).2 = B.elemCache e) (st : σ) :
    ∃ st' s', updateCacheAndElemWithFilter f g st s = .ok (st', s') ∧ Inv A m s' ∧ (abs s').es.map Prod.fst = (abs s).es.map Prod.fst := by
  obtain ⟨h, hi⟩ := hi
  obtain ⟨t, s', -, -, k2, -, k5, -⟩ := C42_any hi f g st
  obtain ⟨lvl, gd⟩ := hi.ex
  obtain ⟨g', sh⟩ := filterMut_neutral hf hg _ _ _ _ _ _ gd k2
  exact ⟨_, s', k2, ⟨h, ⟨lvl, g'⟩, SzX.congr sh hi.sz⟩, k5⟩

/-- The documentation makes the caller responsible for the caches, but no closure is given the root cache.  Here all 30
chunks of a rope are emptied and all caches are set to 0, so every cache that the closures can reach is right; the root
cache still says 90. -/
theorem C42_root_cache_stale : ∃ (st : List Int × List GapBuf) (s' : Tree GapBuf Int) (n : Nat) (t : Shape Int GapBuf n), Inv (ropeLaw 4) 5 ropeSample ∧
    updateCacheAndElemWithFilter (logF (fun _ => true) (fun _ => 0)) (logG fun _ => GapBuf.new 4) ([], []) ropeSample = .ok (st, s') ∧
    shapeOf s' n (.internal s'.root) = some t ∧ (∀ c ∈ Shape.caches n t, c = 0) ∧
    content GapBuf.toVec (abs s').es = [] ∧ s'.rootCache = 90 := by
  obtain ⟨n, t, s', log, k1, -, k3, -, k5, t', k6, k7, k8⟩ := C42_all ropeSample_spec.1 (fun _ => 0) (fun _ => GapBuf.new 4)
  refine ⟨_, s', n, t', ropeSample_spec.1, k3, k6, ?_, ?_, ?_⟩
  · intro c hc
    rw [k7] at hc
    obtain ⟨_, -, rfl⟩ := List.mem_map.mp hc
    rfl
  · rw [k5, ropeSample_spec.2]
    decide +kernel
  · rw [k8, C07_rope_length (by decide) ropeSample_spec.1, ropeSample_spec.2]
    decide +kernel

/-! The hypotheses are met by a rope of 30 chunks (three levels). -/

example := C42_all ropeSample_spec.1 (fun c => c) (fun e => e)

example := C42_neutral (σ := Nat) (f := fun n c => (n + 1, c, decide (2 < c))) (g := fun n e => (n + 100, e)) ropeSample_spec.1 (fun _ _ => rfl) (fun _ _ h => ⟨h, rfl⟩) 0

example := C42_any ropeSample_two (fun (n : Nat) c => (n + 1, c + 1, decide (n < 20))) (fun n e => (n, e)) 0

example := C42_filtered ropeSample_two (fun c => decide (10 < c)) (· + 1) id

end GB

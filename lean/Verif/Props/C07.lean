import Verif.Props.C01

/-!
# C07: `root_cache` is the exact aggregate

`A.total` is the combination of a list of caches fixed by the contract of the cache type: `total_flat` says that
it is associative and `calc_ok` that `calc_cache_internal` computes it.  For the rope it is the sum.
-/

namespace GB
variable {E C D X : Type}
open Tree

/-- On every valid non-empty tree `root_cache()` is the combination of the caches of all elements in order. -/
theorem C07_root_cache {B : Trait E C D} {A : Law B} {m : Fill} {s : Tree E C} (hm : 1 ≤ m.lo)
    (hi : Inv A m s) (hne : (abs s).es ≠ []) :
    s.rootCache = A.total ((abs s).es.map fun x => B.elemCache x.2) := by
  obtain ⟨h, hi⟩ := hi
  have ho : order s ≠ [] := fun h => hne ((abs_nil hi).mpr h)
  obtain ⟨lvl, g⟩ := hi.ex
  exact rootCache_spec g (hi.ne hm) ho

/-- For the rope the root cache is the number of bytes, also on the empty tree. -/
theorem C07_rope_length {cap : Nat} {m : Fill} {s : Tree GapBuf Int} (hm : 1 ≤ m.lo) (hi : Inv (ropeLaw cap) m s) :
    s.rootCache = (content GapBuf.toVec (abs s).es).length := by
  have hok := hi.okE
  by_cases hne : (abs s).es = []
  · rw [hne]
    obtain ⟨h, hi⟩ := hi
    obtain ⟨lvl, g⟩ := hi.ex
    exact g.rok.2 ((empty_iff g.wf (hi.ne hm)).mp ((abs_nil hi).mp hne))
  · rw [C07_root_cache hm hi hne, content_length (ropeContent cap) (es := (abs s).es) hok]
    show List.sum _ = _
    unfold unitLen
    generalize (abs s).es = es
    induction es with
    | nil => rfl
    | cons x es ih =>
      simp only [List.map_cons, List.sum_cons, ih, Int.natCast_add]
      rfl

/-- For the ordered map the root cache is the pair of the smallest and the largest key. -/
theorem C07_ord_min_max {K V : Type} {m : Fill} {s : Tree (K × V) (OrdCache K)} (hm : 1 ≤ m.lo)
    (hi : Inv (ordLaw K V) m s) {a b : Nat × K × V} (ha : (abs s).es.head? = some a) (hb : (abs s).es.getLast? = some b) :
    s.rootCache = some (a.2.1, b.2.1) := by
  rw [C07_root_cache hm hi (by intro h; rw [h] at ha; cases ha)]
  generalize (abs s).es = es at *
  cases es with
  | nil => cases ha
  | cons x es =>
    cases ha
    have hall : ∀ y ∈ (ordTrait K V).elemCache a.2 :: es.map (fun x => (ordTrait K V).elemCache x.2), y.isSome := by
      intro y hy
      rw [← List.map_cons (f := fun x : Nat × K × V => (ordTrait K V).elemCache x.2)] at hy
      obtain ⟨z, -, rfl⟩ := List.mem_map.mp hy
      rfl
    obtain ⟨p, q, h1, h2, h3⟩ := ordTotal_some _ _ hall
    have h4 : ((a :: es).map fun x => (ordTrait K V).elemCache x.2).getLast? = some ((ordTrait K V).elemCache b.2) := by
      rw [List.getLast?_map, hb]; rfl
    rw [List.map_cons, h2] at h4
    cases h1
    cases h4
    exact h3

example := C07_root_cache (by decide) ordSample_spec.1 (by rw [ordSample_spec.2]; simp)
example := C07_rope_length (by decide) ropeSample_spec.1
example := C07_ord_min_max (by decide) ordSample_spec.1 (a := (0, 0, 0)) (b := (29, 58, 29)) (by rw [ordSample_spec.2]; rfl) (by rw [ordSample_spec.2]; rfl)

end GB

import Verif.Proof.OrdMap
import Verif.Proof.CheckSound
import Verif.Props.C43
import Verif.Proof.SampleTwo

/-!
# C51: `get_elem_mut`

`get_elem_mut` lends out an element without any bookkeeping.  A write through it changes that element and nothing else; the
tree stays valid if the element keeps its cache (the way `OrdTreeMap::insert` replaces a value) and is invalid if not.
-/

namespace GB
variable {E C D : Type}
open Tree

/-- Of a dead leaf there is nothing to lend; of a live leaf the element, and a write replaces it at its place in the
sequence, whatever it does to the cache. -/
theorem C51_get_elem_mut {B : Trait E C D} {A : Law B} {m : Fill} {s : Tree E C} (hi : Inv A m s) (l : Nat) (f : E → E) :
    (l ∉ (abs s).es.map Prod.fst → getElemMut s l f = (none, s)) ∧
    (∀ U e V, (abs s).es = U ++ (l, e) :: V → ∃ s', getElemMut s l f = (some e, s') ∧ abs s' = ⟨(abs s).next, U ++ (l, f e) :: V⟩ ∧
      s'.rootCache = s.rootCache ∧ (∀ k, getElem s' k = if k = l then some (f e) else getElem s k)) := by
  obtain ⟨h, ⟨lvl, g⟩, sz⟩ := hi
  constructor
  · intro hl
    have h1 := (locate_dead g.wf).mp (locate_none.mpr hl)
    have h2 : s.lf.get l = none := by simpa [elm] using h1
    rw [getElemMut, h2]
  · intro U e V hent
    have hent : entries s = U ++ (l, e) :: V := hent
    obtain ⟨u, v, p1, -, -, hle⟩ := entries_split g.wf hent
    obtain ⟨e2, q, i, N, hL, he2, -⟩ := leaf_get g.wf (l := l) (by rw [p1]; simp)
    rw [hle] at he2
    cases he2
    have sh : SameShape s (s.setLf l ⟨f e, q⟩) := SameShape.setLf hL rfl
    have hel : ∀ k, elm (s.setLf l ⟨f e, q⟩) k = if k = l then some (f e) else elm s k :=
      fun k => elm_setLf s (by rw [lpar_of hL]; simp) ⟨f e, q⟩ k
    refine ⟨s.setLf l ⟨f e, q⟩, by rw [getElemMut, hL], ?_, rfl, hel⟩
    rw [abs, entries_upd g.wf sh.order hel hent]
    congr 1
    simp [abs, setLf, Arena.set]

/-- A write that keeps the cache of the element keeps the tree valid. -/
theorem C51_same_cache {B : Trait E C D} {A : Law B} {m : Fill} {s : Tree E C} (hi : Inv A m s) {l : Nat} {e : E} {f : E → E}
    (hl : getElem s l = some e) (hok : A.okE (f e)) (hc : B.elemCache (f e) = B.elemCache e) : Inv A m (getElemMut s l f).2 := by
  obtain ⟨h, ⟨lvl, g⟩, sz⟩ := hi
  cases hL : s.lf.get l with
  | none => rw [getElem, hL] at hl; cases hl
  | some n =>
    obtain ⟨e2, q⟩ := n
    rw [getElem, hL] at hl
    cases hl
    obtain ⟨g', sh, -⟩ := g.same_cache hL hok hc
    rw [getElemMut, hL]
    exact ⟨h, ⟨lvl, g'⟩, SzX.congr sh sz⟩

/-- A write that changes the cache leaves a tree that `check()` rejects. -/
theorem C51_other_cache [DecidableEq C] {B : Trait E C D} {A : Law B} {m : Fill} {s : Tree E C} (hi : Inv A m s) {l : Nat} {e : E} {f : E → E}
    (hl : getElem s l = some e) (hc : B.elemCache (f e) ≠ B.elemCache e) : check B (getElemMut s l f).2 ≠ .ok () := by
  intro hck
  obtain ⟨h, ⟨lvl, g⟩, sz⟩ := hi
  cases hL : s.lf.get l with
  | none => rw [getElem, hL] at hl; cases hl
  | some n =>
    obtain ⟨e2, q⟩ := n
    rw [getElem, hL] at hl
    cases hl
    rw [getElemMut, hL] at hck
    have hg : (s.setLf l ⟨f e2, q⟩).lf.get l = some ⟨f e2, q⟩ := by
      rw [setLf_lf, Arena.get_set_live hL, if_pos rfl]
    obtain ⟨P, i, c, h1, h2, h3, h4⟩ := (check_sound hck).leaf l ⟨f e2, q⟩ hg
    have h1 : s.inn.get q = some P := h1
    have h5 := g.cinv q c (by rw [chs_of h1]; exact List.mem_of_getElem? h2) (fun h => h)
    unfold EntryOK at h5
    rw [h3] at h5
    have h6 := h5 e2 (by simp [elm, hL])
    exact hc (by rw [← h4, h6])

/-- `OrdTreeMap`: a new value for a key, and then a new key -/
example : Inv (ordLaw Nat Nat) 6 (getElemMut ordSample 7 fun x => (x.1, 99)).2 ∧
    check (ordTrait Nat Nat) (getElemMut ordSample 7 fun x => (3, x.2)).2 ≠ .ok () :=
  ⟨C51_same_cache ordSample_spec.1 (e := (14, 7)) (by decide +kernel) trivial rfl,
    C51_other_cache ordSample_spec.1 (e := (14, 7)) (by decide +kernel) (by decide)⟩

example := (C51_get_elem_mut ropeSample_spec.1 11 (fun _ => chunk 40)).2 _ _ _ (ropeSample_at (k := 11) (by decide))

example := (C51_get_elem_mut ropeSample_spec.1 30 (fun _ => chunk 40)).1 (by rw [ropeSample_es]; decide)

end GB

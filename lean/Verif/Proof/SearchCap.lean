import Verif.Proof.Search2
import Verif.Proof.PathCap

/-!
# `update_leaf_by_search` on trees that are too high for a `NodePath`
-/

namespace GB
variable {E C D Q F : Type}
open Tree

/-- where a panic comes from -/
theorem bind_panic {α β : Type} {x : M α} {f : α → M β} (h : (x >>= f) = .error .panic) :
    x = .error .panic ∨ ∃ a, x = .ok a ∧ f a = .error .panic := by
  cases x with
  | error e => cases h; exact .inl rfl
  | ok a => exact .inr ⟨a, rfl, h⟩

section
variable {B : Trait E C D} {s : Tree E C} {lvl : Nat → Nat} {h : Nat}

/-- the descent panics below the tenth level -/
theorem searchPath_full (w : WF s lvl h) (q : Query E C Q F) (arg : Q) :
    ∀ (n x arr : Nat) (path : List PIdx) (fd : F) (found : Bool) (r : QueryResult) (fd' : F),
    queryF q arg n s x fd found = .ok (r, fd') → lnk s x ≠ none → 11 ≤ path.length + lvl x →
    searchPathF q arg (n + 1) s (.internal x) arr path fd = .error .panic := by
  intro n
  induction n with
  | zero => intro x arr path fd found r fd' hq; cases hq
  | succ n ih =>
    intro x arr path fd found r fd' hq hx hlen
    obtain ⟨N, hN⟩ := lnk_isSome.mp hx
    rw [searchPathF]
    by_cases hp : path.length < 10
    · simp only [queryF, getIn_ok hN, bind_ok] at hq
      obtain ⟨⟨fr, fd1⟩, h1, hq⟩ := bind_inv hq
      obtain ⟨_, -, hq⟩ := bind_inv hq
      obtain ⟨c, h2, hq⟩ := bind_inv hq
      have hc : (chs s x)[fr.index]? = some c := by
        rw [chs_of hN]
        simp only [vget, unwrap] at h2
        cases hx : N.children[fr.index]? with
        | none => rw [hx] at h2; cases h2
        | some c' => rw [hx] at h2; cases h2; rfl
      simp only [pathPush_ok hp, bind_ok, getIn_ok hN, h1, h2]
      cases har : c.arena with
      | internal y =>
        rw [har] at hq
        have hed : Edge s x fr.index (.internal y) := edge_chs.mpr ⟨c, hc, har⟩
        have h3 := w.kin hed
        exact ih y fr.index _ fd1 _ r fd' hq (by rw [h3.2]; simp) (by simp only [List.length_cons]; omega)
      | leaf l =>
        have hed : Edge s x fr.index (.leaf l) := edge_chs.mpr ⟨c, hc, har⟩
        have := (w.klf hed).1
        omega
    · rw [pathPush_full (by omega)]
      rfl

/-- `update_leaf_by_search` on a tree of eleven or more levels panics -/
theorem updateLeafBySearch_full (w : WF s lvl h) (hh : 11 ≤ h) {q : Query E C Q F} {arg : Q} {r : QueryResult}
    (hq : query q s arg = .ok (some r)) (f : E → QueryResult → M (E × Option (D × Option E × Option E))) :
    updateLeafBySearch B q s arg f = .error .panic := by
  unfold query queryWithFinder at hq
  obtain ⟨⟨r', fd⟩, h1, h2⟩ := bind_inv hq
  cases h2
  obtain ⟨b, h3, h1⟩ := bind_inv h1
  cases b with
  | true => cases h1
  | false =>
    obtain ⟨⟨r', fd'⟩, h4, h5⟩ := bind_inv h1
    cases h5
    obtain ⟨i, hi⟩ := w.root'
    have hp := searchPath_full w q arg s.fuel s.root 0 [] _ _ _ _ h4 (by rw [hi]; simp) (by rw [w.root_lvl]; simp; omega)
    simp only [updateLeafBySearch, h3, bind_ok, Bool.false_eq_true, if_false, hp]
    rfl

end
end GB

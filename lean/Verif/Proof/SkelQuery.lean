import Verif.Proof.SkelSound
import Verif.Proof.Query
import Verif.Spec.AnyFinder

/-!
# Searches in trees with any caches
-/

namespace GB
open Tree
variable {E C D Q F : Type} {s : Tree E C} {lvl : Nat → Nat} {h : Nat}

theorem queryF_any (w : WF s lvl h) (ne : NE s) {q : Query E C Q F} {arg : Q} {okC : C → Prop} (hq : PicksChild q arg okC)
    (hcs : ∀ x c, c ∈ chs s x → okC c.cache) :
    ∀ (n : Nat) (x k : Nat) (fd : F) (found : Bool), lnk s x ≠ none → lvl x = k + 1 → k < n → chs s x ≠ [] →
      ∃ l e fd' found', elm s l = some e ∧
        queryF q arg n s x fd found = (do
          let ((offset, lfound), fd) ← q.confirm fd' arg e
          pure (⟨⟨l, offset⟩, found' && lfound⟩, fd) : M _) := by
  intro n
  induction n with
  | zero => intro x k fd found _ _ hn; omega
  | succ n ih =>
    intro x k fd found hx hlv hk hne
    obtain ⟨N, hN⟩ := lnk_isSome.mp hx
    obtain ⟨r, fd', h1, h2⟩ := hq fd (chs s x) hne (hcs x)
    have hc := List.getElem?_eq_getElem h2
    have hed : Edge s x r.index ((chs s x)[r.index]).arena := edge_chs.mpr ⟨_, hc, rfl⟩
    have hemp : assertM (!N.isEmpty) = .ok () := assertM_true (by
      rw [Node.isEmpty, ← chs_of hN]; simpa using hne)
    simp only [queryF, getIn_ok hN, bind_ok, ← chs_of hN, h1, vget_ok hc, hemp]
    cases har : ((chs s x)[r.index]).arena with
    | leaf l =>
      rw [har] at hed
      obtain ⟨e, he⟩ := elm_some (show lpar s l ≠ none by rw [(w.klf hed).2]; simp)
      obtain ⟨p, hp⟩ := Option.ne_none_iff_exists'.mp (show lpar s l ≠ none by rw [(w.klf hed).2]; simp)
      obtain ⟨e', hL, he'⟩ := getLf_of hp
      exact ⟨l, e', fd', found && r.found, he', by simp only [getLf_ok hL, bind_ok]⟩
    | internal y =>
      rw [har] at hed
      have hkk := w.kin hed
      have hy : lnk s y ≠ none := by rw [hkk.2]; simp
      have hyr : y ≠ s.root := by intro e; subst e; exact w.root_not_kid hed
      have hyl := (w.lvl_pos' hy).1
      obtain ⟨k', rfl⟩ : ∃ k', k = k' + 1 := ⟨k - 1, by omega⟩
      exact ih y k' fd' _ hy (by omega) (by omega) (ne y hy hyr)

/-- a search in a tree that is not empty ends at a leaf of the tree -/
theorem query_any (w : WF s lvl h) (ne : NE s) (hne : (abs s).es ≠ []) {q : Query E C Q F} {arg : Q} {okC : C → Prop} (hq : PicksChild q arg okC)
    (hcs : ∀ x c, c ∈ chs s x → okC c.cache) :
    ∃ U l e W fd found, (abs s).es = U ++ (l, e) :: W ∧
      queryWithFinder q s arg = (do
        let ((offset, lfound), fd) ← q.confirm fd arg e
        pure (some ⟨⟨l, offset⟩, found && lfound⟩, fd) : M _) := by
  have hno : order s ≠ [] := by
    intro ho
    apply hne
    show entriesOf s (order s) = []
    rw [ho]; rfl
  obtain ⟨i, hi⟩ := w.root'
  have hc : chs s s.root ≠ [] := fun hc => hno ((empty_iff w ne).mpr hc)
  obtain ⟨k, hk⟩ : ∃ k, h = k + 1 := ⟨h - 1, by have := w.h_pos; omega⟩
  obtain ⟨l, e, fd, found, he, h3⟩ := queryF_any w ne hq hcs s.fuel s.root k (q.init arg) true
    (by rw [hi]; simp) (by rw [w.root_lvl, hk]) (by have := w.h_le; simp only [Tree.fuel]; omega) hc
  obtain ⟨U, W, hUW⟩ := List.append_of_mem ((entries_mem w).mpr he)
  refine ⟨U, l, e, W, fd, found, hUW, ?_⟩
  have he2 : isEmpty s = .ok false := by rw [isEmpty_spec w ne]; simp [hno]
  simp only [queryWithFinder, he2, bind_ok, h3]
  cases q.confirm fd arg e <;> rfl

end GB

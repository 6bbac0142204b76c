import Verif.Proof.DrainNew

/-!
# Trees that are too high for a `NodePath`
-/

namespace GB
variable {E C D : Type}
open Tree

theorem pathPush_full {p : List PIdx} {i : PIdx} (h : 10 ≤ p.length) : pathPush p i = .error .panic := by
  simp [pathPush, PATHCAP, Nat.not_lt.mpr h]

theorem pathPushTop_full {p : List PIdx} {i : PIdx} (h : 10 ≤ p.length) : pathPushTop p i = .error .panic := by
  simp [pathPushTop, PATHCAP, Nat.not_lt.mpr h]

section
variable {s : Tree E C} {lvl : Nat → Nat} {h : Nat}

theorem getPathF_full (w : WF s lvl h) : ∀ (n x : Nat) (acc : List PIdx), lnk s x ≠ none → h - lvl x < n →
    10 ≤ acc.length + (h - lvl x) → getPathF n s x acc = .error .panic := by
  intro n
  induction n with
  | zero => intro x _ _ hn; omega
  | succ n ih =>
    intro x acc hx hn hcap
    rw [getPathF]
    by_cases hr : x = s.root
    · subst hr
      rw [w.root_lvl] at hcap
      rw [if_pos rfl, pathPushTop_full (by omega)]
    · rw [if_neg hr]
      obtain ⟨p, i, he⟩ := w.par_in' hx hr
      have h1 := w.kin he
      have hg := get_of_lnk h1.2
      have hpl := w.lvl_pos' (edge_live he)
      simp only [getIn_ok hg, bind_ok]
      by_cases hc : acc.length < 10
      · simp only [pathPushTop_ok hc, bind_ok, unwrap_some]
        exact ih p _ (edge_live he) (by omega) (by simp; omega)
      · rw [pathPushTop_full (by omega)]
        rfl

/-- `get_path` of a leaf below ten or more levels of nodes panics -/
theorem getPath_full (w : WF s lvl h) (hh : 10 ≤ h) {l : Nat} (hl : lpar s l ≠ none) : getPath s (.leaf l) = .error .panic := by
  obtain ⟨p, hlp⟩ := Option.ne_none_iff_exists'.mp hl
  obtain ⟨i, he⟩ := w.lpar_edge hlp
  obtain ⟨e', hL, -⟩ := getLf_of hlp
  obtain ⟨P, hP⟩ := lnk_isSome.mp (edge_live he)
  have hl1 := (w.klf he).1
  have hslot := getLeafSlot_wf w he
  simp only [getPath, getLf_ok hL, bind_ok, getIn_ok hP, ← chs_of hP, hslot,
    pathPushTop_ok (show ([] : List PIdx).length < 10 by simp), List.nil_append]
  exact getPathF_full w s.fuel p _ (edge_live he) (fuel_ok w p) (by simp; omega)

theorem firstPathF_full (w : WF s lvl h) (ne : NE s) : ∀ (n x : Nat) (acc : List PIdx), lnk s x ≠ none → lvl x < n →
    chs s x ≠ [] → 10 ≤ acc.length + lvl x → firstPathF n s (.internal x) acc = .error .panic := by
  intro n
  induction n with
  | zero => intro x _ _ hn; omega
  | succ n ih =>
    intro x acc hx hn hne hcap
    obtain ⟨N, hN⟩ := lnk_isSome.mp hx
    by_cases hc : acc.length < 10
    · cases hcx : chs s x with
      | nil => exact absurd hcx hne
      | cons c cs =>
        have hcx' : N.children = c :: cs := by rw [← chs_of hN]; exact hcx
        simp only [firstPathF, pathPush_ok hc, bind_ok, getIn_ok hN, hcx', vget, List.getElem?_cons_zero, unwrap_some]
        have he : Edge s x 0 c.arena := by rw [Edge, kids_of hN, hcx']; rfl
        cases ha : c.arena with
        | leaf l =>
          rw [ha] at he
          have hl1 := (w.klf he).1
          obtain ⟨n', rfl⟩ : ∃ n', n = n' + 1 := ⟨n - 1, by omega⟩
          rw [firstPathF, pathPush_full (by simp; omega)]
          rfl
        | internal y =>
          rw [ha] at he
          have h1 := w.kin he
          have hy : lnk s y ≠ none := by rw [h1.2]; simp
          have hyr : y ≠ s.root := by intro e; subst e; exact w.root_not_kid he
          exact ih y _ hy (by omega) (ne y hy hyr) (by simp; omega)
    · rw [firstPathF, pathPush_full (by omega)]
      rfl

/-- `first_path` of a non-empty tree of ten or more levels panics -/
theorem firstPath_full (w : WF s lvl h) (ne : NE s) (hh : 10 ≤ h) (hne : order s ≠ []) : firstPath s = .error .panic := by
  obtain ⟨i, hi⟩ := w.root'
  have hrl : lnk s s.root ≠ none := by rw [hi]; simp
  have hle := w.h_le
  have := firstPathF_full w ne (s.fuel + 1) s.root [] hrl (by rw [w.root_lvl, fuel]; omega)
    (fun hc => hne ((empty_iff w ne).mpr hc)) (by rw [w.root_lvl]; simp; omega)
  have hemp' : (order s).isEmpty = false := by
    cases ho : order s with
    | nil => exact absurd ho hne
    | cons => rfl
  simp only [firstPath, isEmpty_spec w ne, hemp', bind_ok, Bool.false_eq_true, if_false, this]
  rfl

end
end GB

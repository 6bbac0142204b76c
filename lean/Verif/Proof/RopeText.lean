import Verif.Proof.RopeDel

/-!
# The rope: reading the text
-/

namespace GB
open Tree

section
variable {E C : Type} {s : Tree E C} {lvl : Nat → Nat} {h : Nat}

theorem lastPathF_spec (w : WF s lvl h) (ne : NE s) (hh : h ≤ 9) : ∀ (n x pos : Nat) (acc : List PIdx), lnk s x ≠ none →
    lvl x ≤ n → chs s x ≠ [] → PathTo s (⟨.internal x, pos⟩ :: acc) → acc.length = h - lvl x →
    ∃ l i rest, lastPathF (n + 1) s (.internal x) pos acc = .ok (⟨.leaf l, i⟩ :: rest) ∧
      PathTo s (⟨.leaf l, i⟩ :: rest) ∧ rest.length = h ∧ lastLeafF n s x = .ok (some l) := by
  intro n
  induction n with
  | zero => intro x pos _ hx hn; have := (w.lvl_pos' hx).1; omega
  | succ n ih =>
    intro x pos acc hx hn hne hp hlen
    have hlx := w.lvl_pos' hx
    have hc : acc.length < 10 := by omega
    obtain ⟨N, hN⟩ := lnk_isSome.mp hx
    rw [chs_of hN] at hne
    obtain ⟨c, hcl⟩ : ∃ c, N.children.getLast? = some c := Option.ne_none_iff_exists'.mp (by simp [hne])
    have hcx : N.children[N.children.length - 1]? = some c := by rw [← List.getLast?_eq_getElem?]; exact hcl
    have he : Edge s x (N.children.length - 1) c.arena := edge_chs.mpr ⟨c, by rw [chs_of hN]; exact hcx, rfl⟩
    rw [lastPathF]
    simp only [pathPush_ok hc, bind_ok, getIn_ok hN, vget_ok hcx, lastLeafF, hcl]
    cases ha : c.arena with
    | leaf l =>
      rw [ha] at he
      have hl1 := (w.klf he).1
      have hc2 : (⟨.internal x, pos⟩ :: acc : List PIdx).length < 10 := by simp; omega
      simp only [lastPathF, pathPush_ok hc2, bind_ok, pure_ok]
      exact ⟨l, _, _, rfl, .step he hp, by simp; omega, rfl⟩
    | internal y =>
      rw [ha] at he
      have h1 := w.kin he
      have hy : lnk s y ≠ none := by rw [h1.2]; simp
      have hyr : y ≠ s.root := by intro e; subst e; exact w.root_not_kid he
      have hly := w.lvl_pos' hy
      exact ih y _ _ hy (by omega) (ne y hy hyr) (.step he hp) (by simp; omega)

/-- `last_path` of a non-empty tree -/
theorem lastPath_spec (w : WF s lvl h) (ne : NE s) (hh : h ≤ 9) (hne : order s ≠ []) :
    ∃ l i rest, lastPath s = .ok (some (⟨.leaf l, i⟩ :: rest)) ∧ PathTo s (⟨.leaf l, i⟩ :: rest) ∧ rest.length = h ∧
      (order s).getLast? = some l := by
  obtain ⟨i, hi⟩ := w.root'
  have hrl : lnk s s.root ≠ none := by rw [hi]; simp
  have hle := w.h_le
  obtain ⟨l, j, rest, r1, r2, r3, r4⟩ := lastPathF_spec w ne hh s.fuel s.root 0 [] hrl
    (by rw [w.root_lvl, fuel]; omega) (fun hc => hne ((empty_iff w ne).mpr hc)) .root (by rw [w.root_lvl]; simp)
  refine ⟨l, j, rest, ?_, r2, r3, ?_⟩
  · have hemp' : (order s).isEmpty = false := by
      cases ho : order s with
      | nil => exact absurd ho hne
      | cons => rfl
    simp only [lastPath, isEmpty_spec w ne, hemp', bind_ok, Bool.false_eq_true, if_false, r1]
    rfl
  · have h1 := lastLeaf_spec w ne
    rw [lastLeaf, r4] at h1
    injection h1 with h1
    exact h1.symm

end

variable {cap : Nat} {m : Fill} {r : Rope}

theorem ropeIter_spec {h : Nat} (hm : 1 ≤ m.lo) (hi : InvH (ropeLaw cap) m h r.tree) (hh : h ≤ 9) :
    r.iter = .ok ((abs r.tree).es.map Prod.snd) := by
  have ne := hi.ne hm
  obtain ⟨⟨lvl, g⟩, sz⟩ := hi
  have w := g.wf
  unfold Rope.iter
  by_cases hne : order r.tree = []
  · rw [firstPath_empty w ne hne]
    have : (abs r.tree).es = [] := by show entries r.tree = []; simp [entries, hne]
    rw [this]; rfl
  · obtain ⟨l, y, j, rest, r1, r2, r3, v, v', -, r5⟩ := firstPath_spec w ne hh hne
    obtain ⟨l2, i2, rest2, q1, q2, q3, q4⟩ := lastPath_spec w ne hh hne
    obtain ⟨u, hu⟩ := getLast_split q4
    have hpos := w.h_pos
    have hhead : (u ++ [l2]).head? = some l := by
      rw [← hu]
      have h5 := row_order w
      rw [r5] at h5
      cases ho : order r.tree with
      | nil => exact absurd ho hne
      | cons a t => rw [ho] at h5; cases h5; rfl
    obtain ⟨R, i1, i3⟩ := iterNodesF_spec w ne q2 (leafFuel r.tree) l 0 (⟨.internal y, j⟩ :: rest) [] u [] r2 (by simp; omega)
      (by rw [hu]; simp) hhead (by
        have := order_length_le w
        rw [hu] at this
        simp at this
        rw [leafFuel]; omega)
    simp only [r1, bind_ok, q1, unwrap_some, List.head?_cons, i1, pure_ok]
    congr 1
    have := congrArg (List.map Prod.snd) i3
    simp only [List.map_map] at this
    show R.map _ = (entries r.tree).map Prod.snd
    rw [entries, hu]
    refine Eq.trans ?_ (this.trans ?_)
    · rfl
    · rfl

/-- `Display`: the bytes of the text -/
theorem ropeBytes_spec {h : Nat} (hm : 1 ≤ m.lo) (hi : InvH (ropeLaw cap) m h r.tree) (hh : h ≤ 9) : r.toBytes = .ok r.text := by
  rw [Rope.toBytes, ropeIter_spec hm hi hh]
  simp only [bind_ok, pure_ok]
  congr 1
  rw [Rope.text, content, List.flatMap_map]
  rfl

end GB

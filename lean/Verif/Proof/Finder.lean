import Verif.Proof.Content
import Verif.Proof.CheckSound

/-!
# What `LengthFinder` remembers
-/

namespace GB
open Tree

variable {E C D : Type} {B : Trait E C D}

theorem lenLoop_index (getLen : C → Nat) : ∀ (cs : List (Child C)) (k left ll : Nat) {i : Nat} {a : Idx} {left' : Nat},
    lenLoop getLen cs k left ll = .inl (i, a, left') → k ≤ i ∧ ∃ c, cs[i - k]? = some c ∧ c.arena = a := by
  intro cs
  induction cs with
  | nil => intro k left ll i a left' h; cases h
  | cons c cs ih =>
    intro k left ll i a left' h
    rw [lenLoop] at h
    split at h
    · obtain ⟨h1, c', h2, h3⟩ := ih _ _ _ h
      refine ⟨by omega, c', ?_, h3⟩
      rw [show i - k = (i - (k + 1)) + 1 by omega]
      exact h2
    · cases h
      exact ⟨Nat.le_refl _, c, by simp, rfl⟩

/-- what `LengthFinder::find_node` remembers -/
theorem lenFindNode_memo {getLen : C → Nat} {f f' : LenFinder} {cs : List (Child C)} {r : FindResult}
    (h : lenFindNode getLen f cs = .ok (r, f')) : ∃ c0 c, cs.head? = some c0 ∧ cs[r.index]? = some c ∧
      ((c0.arena.isInternal = true ∧ f'.parent = some c.arena.raw) ∨
        (c0.arena.isInternal = false ∧ f'.parent = f.parent ∧ f'.slot = r.index)) := by
  cases cs with
  | nil => cases h
  | cons c0 cs =>
    rw [lenFindNode] at h
    simp only [List.head?_cons, unwrap_some, bind_ok] at h
    refine ⟨c0, ?_⟩
    split at h
    · next i a left hl =>
      obtain ⟨-, c, h1, h2⟩ := lenLoop_index getLen _ _ _ _ hl
      simp only [pure_ok] at h
      cases h
      refine ⟨c, rfl, by simpa using h1, ?_⟩
      cases hb : c0.arena.isInternal with
      | true => left; simp [h2]
      | false => right; simp
    · next x lastLeft hl =>
      obtain ⟨c, hc⟩ : ∃ c, (c0 :: cs).getLast? = some c := Option.ne_none_iff_exists'.mp (by simp)
      rw [hc] at h
      simp only [unwrap_some, bind_ok, pure_ok] at h
      cases h
      refine ⟨c, rfl, ?_, ?_⟩
      · rw [← List.getLast?_eq_getElem?]; exact hc
      · cases hb : c0.arena.isInternal with
        | true => left; simp
        | false => right; simp

/-- the finder after the search: it remembers the offset, the slot of the leaf, and the parent of the leaf unless that is the root -/
theorem queryF_finder {getLen : C → Nat} {arg : Nat} {s : Tree E C} {lvl : Nat → Nat} {h : Nat} (w : WF s lvl h) : ∀ (n x : Nat) (fd : LenFinder) (found : Bool)
    {r : QueryResult} {fd' : LenFinder}, (fd.parent = if x = s.root then none else some x) →
    queryF (lenQuery B getLen) arg n s x fd found = .ok (r, fd') →
    ∃ p, Edge s p fd'.slot (.leaf r.cursor.leaf) ∧ (fd'.parent = if p = s.root then none else some p) ∧ fd'.left = r.cursor.offset := by
  intro n
  induction n with
  | zero => intro x fd found r fd' _ hq; cases hq
  | succ n ih =>
    intro x fd found r fd' hfd hq
    rw [queryF] at hq
    obtain ⟨node, h1, hq⟩ := bind_inv hq
    obtain ⟨⟨fr, f1⟩, h2, hq⟩ := bind_inv hq
    obtain ⟨_, -, hq⟩ := bind_inv hq
    obtain ⟨c, h3, hq⟩ := bind_inv hq
    obtain ⟨c0, c', k1, k2, k3⟩ := lenFindNode_memo h2
    have hN := getIn_inv h1
    have hv := vget_inv h3
    simp only at hq hv
    rw [hv] at k2
    cases k2
    have hch : chs s x = node.children := chs_of hN
    have he : Edge s x fr.index c.arena := edge_chs.mpr ⟨c, by rw [hch]; exact hv, rfl⟩
    have he0 : Edge s x 0 c0.arena := edge_chs.mpr ⟨c0, by rw [hch, ← List.head?_eq_getElem?]; exact k1, rfl⟩
    cases hca : c.arena with
    | internal y =>
      rw [hca] at hq he
      have hyr : y ≠ s.root := by
        intro e
        obtain ⟨-, M, hM, hMp, -⟩ := w.kid_in _ _ _ he
        obtain ⟨N, hN', hNp⟩ := w.root
        rw [e, hN'] at hM
        cases hM
        rw [hNp] at hMp
        cases hMp
      refine ih y f1 _ ?_ hq
      rw [if_neg hyr]
      rcases k3 with ⟨-, k3⟩ | ⟨k3, -⟩
      · rw [k3, hca]; rfl
      · exfalso
        cases h0 : c0.arena with
        | internal z => rw [h0] at k3; cases k3
        | leaf z =>
          rw [h0] at he0
          have := (w.klf he0).1
          have h5 := w.kin he
          have := (w.lvl_pos' (by rw [h5.2]; simp)).1
          omega
    | leaf l =>
      rw [hca] at hq he
      obtain ⟨leaf, h4, hq⟩ := bind_inv hq
      have hr : r.cursor.leaf = l ∧ fd' = f1 ∧ f1.left = r.cursor.offset := by
        simp only [lenQuery, bind_ok, pure_ok] at hq
        cases hq
        exact ⟨rfl, rfl, rfl⟩
      obtain ⟨hr1, rfl, hr3⟩ := hr
      rcases k3 with ⟨k3, -⟩ | ⟨-, k3, k4⟩
      · exfalso
        cases h0 : c0.arena with
        | leaf z => rw [h0] at k3; cases k3
        | internal z =>
          rw [h0] at he0
          have := (w.klf he).1
          have h5 := w.kin he0
          have := (w.lvl_pos' (by rw [h5.2]; simp)).1
          omega
      · exact ⟨x, by rw [hr1, k4]; exact he, by rw [k3, hfd], hr3⟩

theorem lenQuery_finder {getLen : C → Nat} {s : Tree E C} {lvl : Nat → Nat} {h : Nat} (w : WF s lvl h) {arg : Nat} {r : QueryResult} {fd : LenFinder}
    (hq : queryWithFinder (lenQuery B getLen) s arg = .ok (some r, fd)) :
    ∃ p, Edge s p fd.slot (.leaf r.cursor.leaf) ∧ (fd.parent = if p = s.root then none else some p) ∧ fd.left = r.cursor.offset := by
  rw [queryWithFinder] at hq
  obtain ⟨b, h1, hq⟩ := bind_inv hq
  cases b with
  | true => cases hq
  | false =>
    simp only [Bool.false_eq_true, if_false] at hq
    obtain ⟨⟨r', fd'⟩, h2, hq⟩ := bind_inv hq
    cases hq
    exact queryF_finder w _ _ _ _ (by rw [if_pos rfl]; rfl) h2

/-- the remembered parent and slot are those of the leaf found -/
theorem lenQuery_memo {getLen : C → Nat} {s : Tree E C} {lvl : Nat → Nat} {h : Nat} (w : WF s lvl h) {arg : Nat} {r : QueryResult} {fd : LenFinder}
    (hq : queryWithFinder (lenQuery B getLen) s arg = .ok (some r, fd)) {p : Nat} (hp : fd.parent = some p) : Edge s p fd.slot (.leaf r.cursor.leaf) := by
  obtain ⟨p', h1, h2, -⟩ := lenQuery_finder w hq
  rw [hp] at h2
  split at h2
  · cases h2
  · cases h2; exact h1

end GB

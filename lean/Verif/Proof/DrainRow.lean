import Verif.Proof.Prune

/-!
# Where the drained leaves lie in the tree
-/

namespace GB
variable {E C D : Type}
open Tree

/-- an element between two members of a segment of a list is in the segment -/
theorem btw {α : Type} {P S Q W R : List α} {x u v : α} (hL : P ++ S ++ Q = W ++ x :: R) (nd : (P ++ S ++ Q).Nodup)
    (hu : u ∈ S) (hu' : u ∈ W ++ [x]) (hv : v ∈ S) (hv' : v ∈ x :: R) : x ∈ S := by
  have hx : x ∈ P ++ S ++ Q := by rw [hL]; simp
  rw [List.mem_append, List.mem_append] at hx
  have nd' := nd
  rw [hL] at nd'
  rcases hx with (hx | hx) | hx
  · -- `x` before the segment: then `u` is after `x`
    obtain ⟨p1, p2, rfl⟩ := List.append_of_mem hx
    have he : p1 ++ x :: (p2 ++ S ++ Q) = W ++ x :: R := by rw [← hL]; simp
    have nd2 : (p1 ++ x :: (p2 ++ S ++ Q)).Nodup := by rw [he]; exact nd'
    obtain ⟨e1, e2⟩ := nodup_append_cons_inj he nd2
    exfalso
    have huR : u ∈ R := by rw [← e2]; simp [hu]
    rw [List.nodup_append] at nd'
    rw [List.mem_append, List.mem_singleton] at hu'
    rcases hu' with hu' | rfl
    · exact nd'.2.2 u hu' u (by simp [huR]) rfl
    · exact (List.nodup_cons.mp nd'.2.1).1 huR
  · exact hx
  · obtain ⟨q1, q2, rfl⟩ := List.append_of_mem hx
    have he : (P ++ S ++ q1) ++ x :: q2 = W ++ x :: R := by rw [← hL]; simp
    have nd2 : ((P ++ S ++ q1) ++ x :: q2).Nodup := by rw [he]; exact nd'
    obtain ⟨e1, e2⟩ := nodup_append_cons_inj he nd2
    exfalso
    have hvW : v ∈ W := by rw [← e1]; simp [hv]
    rw [List.nodup_append] at nd'
    exact nd'.2.2 v hvW v hv' rfl

/-- The leaves are `X ++ Y ++ Z`; the first leaf of `Y ++ Z` is `y`; `e` is the first leaf of `Z`, or the last leaf of
`Y` if `Z` is empty. -/
structure Cuts (s : Tree E C) (X Y Z : List Nat) (y e : Nat) : Prop where
  ord : order s = X ++ Y ++ Z
  st : (Y ++ Z).head? = some y
  en : Z.head? = some e ∨ (Z = [] ∧ Y.getLast? = some e)

section
variable {s : Tree E C} {lvl : Nat → Nat} {h : Nat} {X Y Z : List Nat} {y e : Nat}

theorem node_block (w : WF s lvl h) {x : Nat} (hx : lnk s x ≠ none) : ∃ P Q, order s = P ++ lvs s lvl (.internal x) ++ Q := by
  have hl := w.lvl_pos' hx
  have hm := mem_row w (h - lvl x) hx rfl
  obtain ⟨u, v, huv⟩ := List.append_of_mem hm
  have := lv_row w (h - lvl x) (by omega)
  rw [huv, List.flatMap_append, List.flatMap_cons] at this
  have hs : sub s (h - (h - lvl x)) (.internal x) = lvs s lvl (.internal x) := by
    simp only [sub, lvs]
    rw [show h - (h - lvl x) = lvl x by omega]
  rw [hs, ← List.append_assoc] at this
  exact ⟨_, _, this.symm⟩

theorem lvs_order (w : WF s lvl h) {x l : Nat} (hx : lnk s x ≠ none) (hl : l ∈ lvs s lvl (.internal x)) : l ∈ order s := by
  obtain ⟨P, Q, hPQ⟩ := node_block w hx
  rw [hPQ]; simp [hl]

theorem lvs_inj (w : WF s lvl h) {x x' l : Nat} (he : lvl x = lvl x') (hl : l ∈ lvs s lvl (.internal x))
    (hl' : l ∈ lvs s lvl (.internal x')) : x = x' := by
  refine mem_leavesAt_inj w (lvl x) rfl he.symm hl ?_
  rw [he]; exact hl'

/-- a node with a leaf up to `x` and a leaf from `x` on contains `x` -/
theorem node_btw (w : WF s lvl h) {n l : Nat} {W R : List Nat} (hn : lnk s n ≠ none) (ho : order s = W ++ l :: R) {u v : Nat}
    (hu : u ∈ lvs s lvl (.internal n)) (hu' : u ∈ W ++ [l]) (hv : v ∈ lvs s lvl (.internal n)) (hv' : v ∈ l :: R) :
    l ∈ lvs s lvl (.internal n) := by
  obtain ⟨P, Q, hPQ⟩ := node_block w hn
  have nd := order_nodup w
  refine btw (P := P) (S := lvs s lvl (.internal n)) (Q := Q) ?_ (by rw [← hPQ]; exact nd) hu hu' hv hv'
  rw [← hPQ, ho]

namespace Cuts

theorem y_ord (c : Cuts s X Y Z y e) : ∃ R, order s = X ++ y :: R ∧ Y ++ Z = y :: R := by
  cases hyz : Y ++ Z with
  | nil => have := c.st; rw [hyz] at this; cases this
  | cons a R =>
    have := c.st
    rw [hyz] at this
    cases this
    exact ⟨R, by rw [c.ord, List.append_assoc, hyz], rfl⟩

theorem e_ord (c : Cuts s X Y Z y e) : ∃ W R, order s = W ++ e :: R ∧ (∀ l ∈ Z, l ∈ e :: R) ∧ (∀ l ∈ R, l ∈ Z) ∧
    (∀ l ∈ W, l ∈ X ++ Y) ∧ (∀ l ∈ X ++ Y, l ∈ W ++ [e]) := by
  rcases c.en with h | ⟨rfl, h⟩
  · cases Z with
    | nil => cases h
    | cons z Z =>
      cases h
      exact ⟨X ++ Y, Z, c.ord, fun l hl => hl, fun l hl => by simp [hl], fun l hl => hl, fun l hl => by rw [List.mem_append]; exact Or.inl hl⟩
  · obtain ⟨Y', rfl⟩ := getLast_split h
    exact ⟨X ++ Y', [], by rw [c.ord]; simp, by simp, by simp, by simp; intro l hl; rcases hl with h | h <;> simp [h],
      by simp⟩

theorem nodup (c : Cuts s X Y Z y e) (w : WF s lvl h) : (X ++ Y ++ Z).Nodup := by rw [← c.ord]; exact order_nodup w

theorem XY (c : Cuts s X Y Z y e) (w : WF s lvl h) {l : Nat} (h1 : l ∈ X) (h2 : l ∈ Y) : False := by
  have := c.nodup w
  rw [List.append_assoc, List.nodup_append] at this
  exact this.2.2 l h1 l (by simp [h2]) rfl

theorem XZ (c : Cuts s X Y Z y e) (w : WF s lvl h) {l : Nat} (h1 : l ∈ X) (h2 : l ∈ Z) : False := by
  have := c.nodup w
  rw [List.append_assoc, List.nodup_append] at this
  exact this.2.2 l h1 l (by simp [h2]) rfl

theorem YZ (c : Cuts s X Y Z y e) (w : WF s lvl h) {l : Nat} (h1 : l ∈ Y) (h2 : l ∈ Z) : False := by
  have := c.nodup w
  rw [List.nodup_append] at this
  exact this.2.2 l (by simp [h1]) l h2 rfl

theorem mem (c : Cuts s X Y Z y e) {l : Nat} (hl : l ∈ order s) : l ∈ X ∨ l ∈ Y ∨ l ∈ Z := by
  rw [c.ord] at hl
  simpa [or_assoc] using hl

theorem e_mem (c : Cuts s X Y Z y e) : e ∈ Y ++ Z := by
  rcases c.en with h | ⟨rfl, h⟩
  · cases Z with
    | nil => cases h
    | cons z Z => cases h; simp
  · obtain ⟨Y', rfl⟩ := getLast_split h
    simp

/-- a node with a leaf in `X` and one in `Y ++ Z` contains `y` -/
theorem y_in (c : Cuts s X Y Z y e) (w : WF s lvl h) {n u v : Nat} (hn : lnk s n ≠ none) (hu : u ∈ lvs s lvl (.internal n)) (hu' : u ∈ X)
    (hv : v ∈ lvs s lvl (.internal n)) (hv' : v ∈ Y ++ Z) : y ∈ lvs s lvl (.internal n) := by
  obtain ⟨R, h1, h2⟩ := c.y_ord
  exact node_btw w hn h1 hu (by simp [hu']) hv (by rw [← h2]; exact hv')

/-- a node with a leaf in `X ++ Y` and one in `Z` contains `e` -/
theorem e_in (c : Cuts s X Y Z y e) (w : WF s lvl h) {n u v : Nat} (hn : lnk s n ≠ none) (hu : u ∈ lvs s lvl (.internal n)) (hu' : u ∈ X ++ Y)
    (hv : v ∈ lvs s lvl (.internal n)) (hv' : v ∈ Z) : e ∈ lvs s lvl (.internal n) := by
  obtain ⟨W, R, h1, h2, -, -, h5⟩ := c.e_ord
  exact node_btw w hn h1 hu (h5 u hu') hv (h2 v hv')

end Cuts

/-- a node that contains the first leaf of the drained part or the leaf behind it -/
def OnP (s : Tree E C) (lvl : Nat → Nat) (y e : Nat) (x : Nat) : Prop :=
  y ∈ lvs s lvl (.internal x) ∨ e ∈ lvs s lvl (.internal x)

theorem dead_leaf (w : WF s lvl h) (ne : NE s) {p i : Nat} {a : Idx} (he : Edge s p i a) (hd : Dead s lvl Y a) :
    ∃ l ∈ lvs s lvl a, l ∈ Y := by
  cases hl : lvs s lvl a with
  | nil => exact absurd hl (lvs_ne' w ne he)
  | cons l ls => exact ⟨l, by simp, dead_iff.mp hd l (by rw [hl]; simp)⟩

theorem kid_lvs (w : WF s lvl h) {p i l : Nat} {a : Idx} (he : Edge s p i a) (hl : l ∈ lvs s lvl a) : l ∈ lvs s lvl (.internal p) := by
  rw [lvs_kids w (edge_live he), List.mem_flatMap]
  exact ⟨a, mem_kids.mpr ⟨i, he⟩, hl⟩

/-- off the two paths only dead nodes have dead children -/
theorem off_path (c : Cuts s X Y Z y e) (w : WF s lvl h) (ne : NE s) {n i : Nat} {a : Idx} (he : Edge s n i a) (hd : Dead s lvl Y a)
    (ho : ¬ OnP s lvl y e n) : Dead s lvl Y (.internal n) := by
  obtain ⟨l, hl, hlY⟩ := dead_leaf w ne he hd
  have hn := edge_live he
  rw [dead_iff]
  intro l' hl'
  rcases c.mem (lvs_order w hn hl') with h1 | h1 | h1
  · exact absurd (Or.inl (c.y_in w hn hl' h1 (kid_lvs w he hl) (by simp [hlY]))) ho
  · exact h1
  · exact absurd (Or.inr (c.e_in w hn (kid_lvs w he hl) (by simp [hlY]) hl' h1)) ho

/-- a node that has a dead child but is not dead contains the last leaf of `X` or the first leaf of `Z` -/
theorem stale_leaf (c : Cuts s X Y Z y e) (w : WF s lvl h) (ne : NE s) {n i : Nat} {a : Idx} (he : Edge s n i a) (hd : Dead s lvl Y a)
    (ho : ¬ Dead s lvl Y (.internal n)) : ∃ l ∈ lvs s lvl (.internal n), X.getLast? = some l ∨ Z.head? = some l := by
  obtain ⟨l, hl, hlY⟩ := dead_leaf w ne he hd
  have hn := edge_live he
  have hl := kid_lvs w he hl
  have : ∃ l' ∈ lvs s lvl (.internal n), l' ∉ Y := by
    apply Decidable.byContradiction
    intro hc
    apply ho
    rw [dead_iff]
    intro l' hl'
    exact Decidable.byContradiction fun hn' => hc ⟨l', hl', hn'⟩
  obtain ⟨l', hl', hn'⟩ := this
  rcases c.mem (lvs_order w hn hl') with h1 | h1 | h1
  · cases hx : X.getLast? with
    | none => rw [List.getLast?_eq_none_iff] at hx; rw [hx] at h1; simp at h1
    | some b =>
      obtain ⟨X', rfl⟩ := getLast_split hx
      refine ⟨b, node_btw w hn (W := X') (R := Y ++ Z) (by rw [c.ord]; simp) hl' h1 hl (by simp [hlY]), Or.inl rfl⟩
  · exact absurd h1 hn'
  · cases hz : Z with
    | nil => rw [hz] at h1; simp at h1
    | cons z Z' =>
      refine ⟨z, node_btw w hn (W := X ++ Y) (R := Z') (by rw [c.ord, hz]) hl (by simp [hlY]) hl' (by rw [← hz]; exact h1), Or.inr rfl⟩

/-! ## Children of the path nodes -/

/-- leaves of the children left and right of a given child -/
theorem kid_block (w : WF s lvl h) {p i l : Nat} {a : Idx} (he : Edge s p i a) (hl : l ∈ lvs s lvl a) :
    ∃ P Q A1 A2, order s = (P ++ ((kids s p).take i).flatMap (lvs s lvl) ++ A1) ++ l :: (A2 ++ ((kids s p).drop (i + 1)).flatMap (lvs s lvl) ++ Q) := by
  obtain ⟨P, Q, hPQ⟩ := node_block w (edge_live he)
  obtain ⟨A1, A2, hA⟩ := List.append_of_mem hl
  refine ⟨P, Q, A1, A2, ?_⟩
  rw [hPQ, lvs_kids w (edge_live he)]
  have hsp : kids s p = (kids s p).take i ++ a :: (kids s p).drop (i + 1) := (set_split he a).1
  have : (kids s p).flatMap (lvs s lvl) = ((kids s p).take i).flatMap (lvs s lvl) ++ (lvs s lvl a ++ ((kids s p).drop (i + 1)).flatMap (lvs s lvl)) := by
    rw [hsp, List.flatMap_append, List.flatMap_cons, ← hsp]
  rw [this, hA]
  simp

theorem left_of (w : WF s lvl h) {p i l k m : Nat} {a b : Idx} {U V : List Nat} (he : Edge s p i a) (hl : l ∈ lvs s lvl a)
    (ho : order s = U ++ l :: V) (hb : Edge s p k b) (hk : k < i) (hm : m ∈ lvs s lvl b) : m ∈ U := by
  obtain ⟨P, Q, A1, A2, h1⟩ := kid_block w he hl
  have nd := order_nodup w
  rw [ho] at h1 nd
  obtain ⟨rfl, -⟩ := nodup_append_cons_inj h1 nd
  have : m ∈ ((kids s p).take i).flatMap (lvs s lvl) := by
    rw [List.mem_flatMap]
    refine ⟨b, ?_, hm⟩
    rw [List.mem_iff_getElem?]
    exact ⟨k, by rw [List.getElem?_take, if_pos hk]; exact hb⟩
  simp [this]

theorem right_of (w : WF s lvl h) {p i l k m : Nat} {a b : Idx} {U V : List Nat} (he : Edge s p i a) (hl : l ∈ lvs s lvl a)
    (ho : order s = U ++ l :: V) (hb : Edge s p k b) (hk : i < k) (hm : m ∈ lvs s lvl b) : m ∈ V := by
  obtain ⟨P, Q, A1, A2, h1⟩ := kid_block w he hl
  have nd := order_nodup w
  rw [ho] at h1 nd
  obtain ⟨-, rfl⟩ := nodup_append_cons_inj h1 nd
  have : m ∈ ((kids s p).drop (i + 1)).flatMap (lvs s lvl) := by
    rw [List.mem_flatMap]
    refine ⟨b, ?_, hm⟩
    rw [List.mem_iff_getElem?]
    refine ⟨k - (i + 1), ?_⟩
    rw [List.getElem?_drop, show i + 1 + (k - (i + 1)) = k by omega]
    exact hb
  simp [this]

theorem not_dead_of (w : WF s lvl h) (ne : NE s) {p i : Nat} {a : Idx} (he : Edge s p i a) (hn : ∀ l ∈ lvs s lvl a, l ∉ Y) : ¬ Dead s lvl Y a := by
  intro hd
  obtain ⟨l, h1, h2⟩ := dead_leaf w ne he hd
  exact hn l h1 h2

variable (c : Cuts s X Y Z y e) (w : WF s lvl h) (ne : NE s)
include c w

/-- children left of the start child are alive -/
theorem start_left (ne : NE s) {p i k : Nat} {a b : Idx} (he : Edge s p i a) (hy : y ∈ lvs s lvl a) (hb : Edge s p k b) (hk : k < i) :
    ¬ Dead s lvl Y b := by
  obtain ⟨R, h1, -⟩ := c.y_ord
  exact not_dead_of w ne hb fun l hl hY => c.XY w (left_of w he hy h1 hb hk hl) hY

/-- children right of the end child are alive -/
theorem end_right (ne : NE s) {p i k : Nat} {a b : Idx} (he : Edge s p i a) (hy : e ∈ lvs s lvl a) (hb : Edge s p k b) (hk : i < k) :
    ¬ Dead s lvl Y b := by
  obtain ⟨W, R, h1, -, h3, -⟩ := c.e_ord
  exact not_dead_of w ne hb fun l hl hY => c.YZ w hY (h3 l (right_of w he hy h1 hb hk hl))

theorem start_right_mem {p i k l : Nat} {a b : Idx} (he : Edge s p i a) (hy : y ∈ lvs s lvl a) (hb : Edge s p k b) (hk : i < k)
    (hl : l ∈ lvs s lvl b) : l ∈ Y ++ Z := by
  obtain ⟨R, h1, h2⟩ := c.y_ord
  rw [h2]
  simp [right_of w he hy h1 hb hk hl]

theorem end_left_mem {p i k l : Nat} {a b : Idx} (he : Edge s p i a) (hy : e ∈ lvs s lvl a) (hb : Edge s p k b) (hk : k < i)
    (hl : l ∈ lvs s lvl b) : l ∈ X ++ Y := by
  obtain ⟨W, R, h1, -, -, h4, -⟩ := c.e_ord
  exact h4 l (left_of w he hy h1 hb hk hl)

/-- below one parent the start child does not lie right of the end child -/
theorem same_le {p i j : Nat} {a b : Idx} (he : Edge s p i a) (hy : y ∈ lvs s lvl a) (hb : Edge s p j b) (hz : e ∈ lvs s lvl b) : i ≤ j := by
  apply Decidable.byContradiction
  intro hn
  obtain ⟨R, h1, -⟩ := c.y_ord
  have := left_of w he hy h1 hb (by omega) hz
  have h2 := c.e_mem
  rw [List.mem_append] at h2
  rcases h2 with h2 | h2
  · exact c.XY w this h2
  · exact c.XZ w this h2

/-- below one parent the children between the start child and the end child are dead -/
theorem same_mid {p i j k : Nat} {a b d : Idx} (he : Edge s p i a) (hy : y ∈ lvs s lvl a) (hb : Edge s p j b) (hz : e ∈ lvs s lvl b)
    (hd : Edge s p k d) (h1 : i < k) (h2 : k < j) : Dead s lvl Y d := by
  rw [dead_iff]
  intro l hl
  have m1 := start_right_mem c w he hy hd h1 hl
  have m2 := end_left_mem c w hb hz hd h2 hl
  rw [List.mem_append] at m1 m2
  rcases m1 with m1 | m1
  · exact m1
  · rcases m2 with m2 | m2
    · exact absurd m1 fun hz => c.XZ w m2 hz
    · exact m2

/-- with different parents, the children right of the start child are dead -/
theorem apart_right {p i k : Nat} {a d : Idx} (he : Edge s p i a) (hy : y ∈ lvs s lvl a) (hd : Edge s p k d) (hk : i < k)
    (hne : e ∉ lvs s lvl (.internal p)) : Dead s lvl Y d := by
  rw [dead_iff]
  intro l hl
  have m1 := start_right_mem c w he hy hd hk hl
  rw [List.mem_append] at m1
  rcases m1 with m1 | m1
  · exact m1
  · exfalso
    apply hne
    -- `y` is in `Y`, otherwise `y = e`
    have hyp := kid_lvs w he hy
    obtain ⟨R, h1, h2⟩ := c.y_ord
    cases hY : Y with
    | nil =>
      rcases c.en with hz | ⟨rfl, hz⟩
      · rw [hY, List.nil_append] at h2
        rw [h2] at hz
        cases hz
        exact hyp
      · rw [hY] at hz; cases hz
    | cons y' Y' =>
      rw [hY, List.cons_append, List.cons.injEq] at h2
      exact c.e_in w (edge_live he) hyp (by rw [hY, h2.1]; simp) (kid_lvs w hd hl) m1

/-- with different parents, the children left of the end child are dead -/
theorem apart_left {p i k : Nat} {a d : Idx} (he : Edge s p i a) (hz : e ∈ lvs s lvl a) (hd : Edge s p k d) (hk : k < i)
    (hne : y ∉ lvs s lvl (.internal p)) : Dead s lvl Y d := by
  rw [dead_iff]
  intro l hl
  have m1 := end_left_mem c w he hz hd hk hl
  rw [List.mem_append] at m1
  rcases m1 with m1 | m1
  · exact absurd (c.y_in w (edge_live he) (kid_lvs w hd hl) m1 (kid_lvs w he hz) c.e_mem) hne
  · exact m1

end
end GB

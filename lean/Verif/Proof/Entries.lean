import Verif.Proof.LeafIns

/-!
# The abstract value of a tree: its entries in order
-/

namespace GB
variable {E C D : Type}
open Tree

/-- leaf ids with their elements -/
def entriesOf (s : Tree E C) (ls : List Nat) : List (Nat × E) :=
  ls.filterMap fun l => (elm s l).map fun e => (l, e)

/-- the leaves of the tree with their elements, in order -/
def entries (s : Tree E C) : List (Nat × E) := entriesOf s (order s)

/-- the elements of the tree, in order -/
def toList (s : Tree E C) : List E := (entries s).map Prod.snd

/-- the invariant, with `h` levels and minimum occupancy `m` -/
structure InvH {B : Trait E C D} (A : Law B) (m : Fill) (h : Nat) (s : Tree E C) : Prop where
  ex : ∃ lvl, Good A s lvl h
  sz : Sz m s h

/-- the invariant with minimum occupancy `m` -/
def Inv {B : Trait E C D} (A : Law B) (m : Fill) (s : Tree E C) : Prop := ∃ h, InvH A m h s

theorem InvH.inv {B : Trait E C D} {A : Law B} {m : Fill} {h : Nat} {s : Tree E C} (i : InvH A m h s) : Inv A m s := ⟨h, i⟩

section
variable {s s' : Tree E C} {lvl : Nat → Nat} {h : Nat}

theorem entriesOf_append (u v : List Nat) : entriesOf s (u ++ v) = entriesOf s u ++ entriesOf s v := by
  simp [entriesOf]

theorem entriesOf_cons {l : Nat} {e : E} (he : elm s l = some e) (v : List Nat) :
    entriesOf s (l :: v) = (l, e) :: entriesOf s v := by
  simp [entriesOf, he]

@[simp] theorem entriesOf_nil : entriesOf s [] = [] := rfl

theorem entriesOf_congr {ls : List Nat} (hc : ∀ l ∈ ls, elm s' l = elm s l) : entriesOf s' ls = entriesOf s ls := by
  unfold entriesOf
  induction ls with
  | nil => rfl
  | cons a ls ih =>
    simp only [List.filterMap_cons]
    rw [hc a (by simp), ih (fun l hl => hc l (by simp [hl]))]

theorem Same.entries (hs : Same s s') : entries s' = entries s := by
  rw [GB.entries, GB.entries, hs.order]
  exact entriesOf_congr fun l _ => hs.elm l

theorem Same.toList (hs : Same s s') : toList s' = toList s := by
  rw [GB.toList, GB.toList, hs.entries]

theorem entriesOf_fst (w : WF s lvl h) {ls : List Nat} (hl : ∀ l ∈ ls, lpar s l ≠ none) :
    (entriesOf s ls).map Prod.fst = ls := by
  induction ls with
  | nil => rfl
  | cons a ls ih =>
    obtain ⟨e, he⟩ := elm_some (hl a (by simp))
    rw [entriesOf_cons he]
    simp [ih (fun l hx => hl l (by simp [hx]))]

theorem entries_fst (w : WF s lvl h) : (entries s).map Prod.fst = order s :=
  entriesOf_fst w fun _ hl => (mem_order w).mp hl

theorem entries_length (w : WF s lvl h) : (entries s).length = (order s).length := by
  rw [← entries_fst w, List.length_map]

theorem toList_length (w : WF s lvl h) : (toList s).length = (order s).length := by
  rw [toList, List.length_map, entries_length w]

theorem mem_entries_elm {ls : List Nat} {l : Nat} {e : E} (hm : (l, e) ∈ entriesOf s ls) : l ∈ ls ∧ elm s l = some e := by
  unfold entriesOf at hm
  obtain ⟨a, ha, h1⟩ := List.mem_filterMap.mp hm
  cases h2 : elm s a with
  | none => rw [h2] at h1; cases h1
  | some x =>
    rw [h2] at h1
    simp only [Option.map_some, Option.some.injEq, Prod.mk.injEq] at h1
    obtain ⟨rfl, rfl⟩ := h1
    exact ⟨ha, h2⟩

theorem entries_mem (w : WF s lvl h) {l : Nat} {e : E} : (l, e) ∈ entries s ↔ elm s l = some e := by
  constructor
  · intro hm; exact (mem_entries_elm hm).2
  · intro he
    have hl : l ∈ order s := (mem_order w).mpr (elm_live he)
    obtain ⟨u, v, huv⟩ := List.append_of_mem hl
    rw [entries, huv, entriesOf_append, entriesOf_cons he]
    simp

theorem entries_nodup (w : WF s lvl h) : ((entries s).map Prod.fst).Nodup := by
  rw [entries_fst w]; exact order_nodup w

theorem order_split {l : Nat} {u v : List Nat} {e : E} (ho : order s = u ++ l :: v) (he : elm s l = some e) :
    entries s = entriesOf s u ++ (l, e) :: entriesOf s v := by
  rw [entries, ho, entriesOf_append, entriesOf_cons he]

theorem entries_split (w : WF s lvl h) {l : Nat} {e : E} {U V : List (Nat × E)} (hs : entries s = U ++ (l, e) :: V) :
    ∃ u v, order s = u ++ l :: v ∧ U = entriesOf s u ∧ V = entriesOf s v ∧ elm s l = some e := by
  have h1 := entries_fst w
  have he : elm s l = some e := (entries_mem w).mp (by rw [hs]; simp)
  rw [hs] at h1
  simp only [List.map_append, List.map_cons] at h1
  have h2 := order_split h1.symm he
  have nd := entries_nodup w
  rw [hs] at h2
  have hl1 : (entriesOf s (U.map Prod.fst)).length = U.length := by
    rw [← List.length_map (f := Prod.fst) (as := entriesOf s (U.map Prod.fst)), entriesOf_fst w, List.length_map]
    intro x hx
    apply (mem_order w).mp
    rw [← h1]; simp only [List.mem_append]; exact Or.inl hx
  obtain ⟨h3, h4⟩ := List.append_inj h2 hl1.symm
  exact ⟨_, _, h1.symm, h3, (List.cons.inj h4).2, he⟩

/-- replacing the element of one leaf -/
theorem entries_upd (w : WF s lvl h) (ho : order s' = order s) {l : Nat} {e' : E}
    (hel : ∀ k, elm s' k = if k = l then some e' else elm s k) {U V : List (Nat × E)} {e : E}
    (hs : entries s = U ++ (l, e) :: V) : entries s' = U ++ (l, e') :: V := by
  obtain ⟨u, v, h1, rfl, rfl, h4⟩ := entries_split w hs
  have nd := order_nodup w
  rw [h1, List.nodup_append] at nd
  have nd2 := List.nodup_cons.mp nd.2.1
  rw [order_split (s := s') (e := e') (ho.trans h1) (by rw [hel, if_pos rfl])]
  rw [entriesOf_congr (s := s), entriesOf_congr (s := s) (ls := v)]
  · intro k hk; rw [hel, if_neg]; intro e; subst e; exact nd2.1 hk
  · intro k hk; rw [hel, if_neg]; intro e; subst e; exact nd.2.2 k hk k (by simp) rfl

/-- inserting one leaf -/
theorem entries_ins (w : WF s lvl h) {u v : List Nat} {l0 : Nat} {data : E} (ho : order s = u ++ v)
    (ho' : order s' = u ++ l0 :: v) (h0 : lpar s l0 = none)
    (hel : ∀ k, elm s' k = if k = l0 then some data else elm s k) :
    entries s = entriesOf s u ++ entriesOf s v ∧ entries s' = entriesOf s u ++ (l0, data) :: entriesOf s v := by
  have hn : ∀ k ∈ u ++ v, k ≠ l0 := by
    intro k hk e
    subst e
    rw [← ho] at hk
    exact (mem_order w).mp hk h0
  refine ⟨by rw [entries, ho, entriesOf_append], ?_⟩
  rw [order_split (s := s') (e := data) ho' (by rw [hel, if_pos rfl])]
  rw [entriesOf_congr (s := s), entriesOf_congr (s := s) (ls := v)]
  · intro k hk; rw [hel, if_neg (hn k (by simp [hk]))]
  · intro k hk; rw [hel, if_neg (hn k (by simp [hk]))]

end
end GB

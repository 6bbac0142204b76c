import Verif.Proof.DrainPurge

/-!
# The iteration of `Drain`: `next`, `ensure_finished`
-/

namespace GB
variable {E C D : Type}
open Tree

theorem nextSibling_inn {s t : Tree E C} (h : t.inn = s.inn) : ∀ (path : List PIdx), nextSibling t path = nextSibling s path := by
  have hg : ∀ a, t.getInIdx a = s.getInIdx a := by intro a; cases a <;> simp [getInIdx, getIn, Idx.unwrapInternal, h]
  intro path
  induction path with
  | nil => rfl
  | cons a path ih =>
    cases path with
    | nil => rfl
    | cons b rest => rw [nextSibling, nextSibling, ih]; simp only [hg]

section
variable {s : Tree E C} {lvl : Nat → Nat} {h : Nat} {X Y Z Y1 Y2 : List Nat} {d : Drain E C}

/-- the drain has yielded `Y1`, still has to yield `Y2` and stops before `Z` -/
structure DS (s : Tree E C) (h : Nat) (X Y1 Y2 Z : List Nat) (d : Drain E C) : Prop where
  ord : order s = X ++ (Y1 ++ Y2) ++ Z
  inn : d.tree.inn = s.inn
  root : d.tree.root = s.root
  rc : d.tree.rootCache = s.rootCache
  lf : ∀ l, d.tree.lf.get l = if l ∈ Y1 then none else s.lf.get l
  items : d.tree.lf.items.length = s.lf.items.length
  /-- the end cursor is in none of the leaves still to come, and in the first leaf of `Z` -/
  stop : (∀ y ∈ Y2, d.endCursor.map Cursor.leaf ≠ some y) ∧ (Z ≠ [] → d.endCursor.map Cursor.leaf = Z.head?)
  path : (Y2 ++ Z = [] ∧ d.done = true) ∨
    ∃ l i rest, (Y2 ++ Z).head? = some l ∧ d.done = false ∧ d.path = ⟨.leaf l, i⟩ :: rest ∧ PathTo s (⟨.leaf l, i⟩ :: rest) ∧ rest.length = h

theorem drainNext_end (t : DS s h X Y1 [] Z d) : drainNext d = .ok (none, d) := by
  rcases t.path with ⟨-, h2⟩ | ⟨l, i, rest, h1, h2, h3, -⟩
  · simp only [drainNext, h2, if_true]
  · simp only [drainNext, h2, h3, List.head?_cons, unwrap_some, bind_ok, Idx.unwrapLeaf]
    have : d.endCursor.map Cursor.leaf = some l := by
      rw [t.stop.2 (by rintro rfl; cases h1)]
      exact h1
    rw [if_pos this]
    rfl

theorem drainNext_more {l : Nat} (w : WF s lvl h) (ne : NE s) (t : DS s h X Y1 (l :: Y2) Z d) :
    ∃ e d', drainNext d = .ok (some e, d') ∧ elm s l = some e ∧ DS s h X (Y1 ++ [l]) Y2 Z d' ∧ d'.store = d.store := by
  have nd := order_nodup w
  rw [t.ord] at nd
  rcases t.path with ⟨h1, -⟩ | ⟨l', i, rest, h1, h2, h3, h4, h5⟩
  · simp at h1
  simp only [List.cons_append, List.head?_cons, Option.some.injEq] at h1
  subst h1
  have hne : ¬ d.endCursor.map Cursor.leaf = some l := t.stop.1 l (by simp)
  have stop' := And.intro (fun y (hy : y ∈ Y2) => t.stop.1 y (by simp [hy])) t.stop.2
  have hl1 : l ∉ Y1 := by
    intro hm
    rw [List.append_assoc, List.nodup_append] at nd
    have := nd.2.1
    rw [List.append_assoc, List.nodup_append] at this
    exact this.2.2 l hm l (by simp) rfl
  have hlive : lpar s l ≠ none := (mem_order w).mp (by rw [t.ord]; simp)
  obtain ⟨p, hlp⟩ := Option.ne_none_iff_exists'.mp hlive
  obtain ⟨e, hL, hel⟩ := getLf_of hlp
  have hL' : d.tree.lf.get l = some ⟨e, p⟩ := by rw [t.lf, if_neg hl1]; exact hL
  have hget : d.tree.getLf l = .ok ⟨e, p⟩ := by simp only [getLf, hL', unwrap_some]
  obtain ⟨u, v, r1, r2⟩ := nextSibling_spec w ne h4 rfl (by omega)
  have hrow : rowI s h = (order s).map .leaf := row_order w
  rw [h5, hrow] at r1
  -- `u`, `v` are the leaves around `l`
  have huv : u = (X ++ Y1).map Idx.leaf ∧ v = (Y2 ++ Z).map Idx.leaf := by
    have e1 : (order s).map Idx.leaf = (X ++ Y1).map Idx.leaf ++ .leaf l :: (Y2 ++ Z).map Idx.leaf := by rw [t.ord]; simp
    have nd2 : ((order s).map Idx.leaf).Nodup := by
      have := order_nodup w
      rw [List.nodup_iff_pairwise_ne] at this ⊢
      exact this.map _ (fun a b hab hc => hab (by cases hc; rfl))
    rw [e1] at r1 nd2
    obtain ⟨a, b⟩ := nodup_append_cons_inj r1 nd2
    exact ⟨a.symm, b.symm⟩
  have hrem : ∀ k, (d.tree.lf.remove l).get k = if k ∈ Y1 ++ [l] then none else s.lf.get k := by
    intro k
    rw [Arena.get_remove, t.lf]
    by_cases hk : k = l
    · simp [hk]
    · simp [hk]
  have hrun : ∀ (o : Option (List PIdx)), nextSibling s d.path = .ok o →
      drainNext d = .ok (some e, { d with tree := { d.tree with lf := d.tree.lf.remove l }, path := o.getD d.path, done := o.isNone }) := by
    intro o ho
    have hh : d.path.head? = some ⟨.leaf l, i⟩ := by rw [h3]; rfl
    simp only [drainNext, h2, Bool.false_eq_true, if_false, hh, unwrap_some, bind_ok, Idx.unwrapLeaf, if_neg hne, nextSibling_inn t.inn, ho]
    cases o with
    | none => simp only [pure_ok, bind_ok, hget]; rfl
    | some p' => simp only [pure_ok, bind_ok, hget]; rfl
  have ord' : order s = X ++ (Y1 ++ [l] ++ Y2) ++ Z := by rw [t.ord]; simp
  rcases r2 with ⟨rfl, r3⟩ | ⟨b, v', j, rest', rfl, r3, r4, r5⟩
  · rw [h3] at hrun
    refine ⟨e, _, hrun none r3, hel, ⟨ord', t.inn, t.root, t.rc, hrem, by simp [t.items], stop', Or.inl ⟨?_, rfl⟩⟩, rfl⟩
    have := huv.2
    simpa using this.symm
  · rw [h3] at hrun
    cases hyz : Y2 ++ Z with
    | nil => rw [hyz] at huv; cases huv.2
    | cons b' R =>
      rw [hyz] at huv
      have hb := huv.2
      simp only [List.map_cons, List.cons.injEq] at hb
      obtain ⟨rfl, -⟩ := hb
      refine ⟨e, _, hrun _ r3, hel, ⟨ord', t.inn, t.root, t.rc, hrem, by simp [t.items], stop', Or.inr ⟨b', j, rest', by rw [hyz]; rfl, rfl, rfl, r4, by omega⟩⟩, rfl⟩

/-- the user takes some of the items -/
theorem drainTake_spec (w : WF s lvl h) (ne : NE s) : ∀ (k : Nat) (Y1 Y2 : List Nat) (d : Drain E C), DS s h X Y1 Y2 Z d →
    ∃ d', drainTake k d = .ok ((Y2.take k).filterMap (elm s), d') ∧ DS s h X (Y1 ++ Y2.take k) (Y2.drop k) Z d' ∧ d'.store = d.store := by
  intro k
  induction k with
  | zero => intro Y1 Y2 d t; exact ⟨d, rfl, by simpa using t, rfl⟩
  | succ k ih =>
    intro Y1 Y2 d t
    cases Y2 with
    | nil =>
      obtain ⟨d', e1, e2, e3⟩ := ih Y1 [] d t
      refine ⟨d', ?_, by simpa using e2, e3⟩
      simp only [drainTake, drainNext_end t, bind_ok, e1]
      simp
    | cons l Y2 =>
      obtain ⟨e, d1, e1, e2, e3, e4⟩ := drainNext_more w ne t
      obtain ⟨d', f1, f2, f3⟩ := ih _ _ d1 e3
      refine ⟨d', ?_, by simpa using f2, f3.trans e4⟩
      simp only [drainTake, e1, bind_ok, f1]
      simp [e2]

/-- `ensure_finished` -/
theorem drainFinish_spec (w : WF s lvl h) (ne : NE s) : ∀ (n : Nat) (Y1 Y2 : List Nat) (d : Drain E C), DS s h X Y1 Y2 Z d → Y2.length < n →
    ∃ d', drainFinish n d = .ok (Y2.filterMap (elm s), d') ∧ DS s h X (Y1 ++ Y2) [] Z d' ∧ d'.store = d.store := by
  intro n
  induction n with
  | zero => intro Y1 Y2 d _ hn; omega
  | succ n ih =>
    intro Y1 Y2 d t hn
    cases Y2 with
    | nil =>
      refine ⟨d, ?_, by simpa using t, rfl⟩
      simp only [drainFinish, drainNext_end t, bind_ok]
      rfl
    | cons l Y2 =>
      obtain ⟨e, d1, e1, e2, e3, e4⟩ := drainNext_more w ne t
      obtain ⟨d', f1, f2, f3⟩ := ih _ _ d1 e3 (by simp at hn; omega)
      refine ⟨d', ?_, by simpa using f2, f3.trans e4⟩
      simp only [drainFinish, e1, bind_ok, f1]
      simp [e2]

end
end GB

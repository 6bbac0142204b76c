import Verif.Proof.OrdAny
import Verif.Props.C06

/-!
# C83: a lawless `Ord` cannot break `OrdTreeMap`

`Ord` is a safe trait: nothing stops a key type from comparing without antisymmetry or transitivity, or from giving other answers at the
next call.  Then the order of the pairs means nothing.  The map still never panics, keeps a valid tree, counts its pairs, and loses or
invents none.
-/

namespace GB
open Tree

/-- Both algorithms of the standard library stay in range on lists that are not sorted. -/
theorem C83_searches {α : Type} : SearchInRange (binSearch (α := α)) ∧ SearchInRange (binSearch2 (α := α)) :=
  ⟨binSearch_range, binSearch2_range⟩

section
variable {K V : Type}

/-- One insertion with any comparison: the pair is put next to some pair, or the value of a pair whose key is called equal is replaced. -/
theorem C83_insert [Ord K] {m : OrdMap K V} (hm : m.Sound) (k : K) (v : V) :
    ∃ m', m.insert k v = .ok m' ∧ m'.Sound ∧
      ((m.assoc = [] ∧ m'.assoc = [(k, v)]) ∨
       (∃ a e b, m.assoc = a ++ e :: b ∧ compare k e.1 = .gt ∧ m'.assoc = a ++ e :: (k, v) :: b) ∨
       (∃ a e b, m.assoc = a ++ e :: b ∧ compare k e.1 ≠ .gt ∧ m'.assoc = a ++ (k, v) :: e :: b) ∨
       (∃ a e b, m.assoc = a ++ e :: b ∧ compare k e.1 = .eq ∧ m'.assoc = a ++ (e.1, v) :: b)) := by
  obtain ⟨m', h1, h2, -, h3⟩ := OrdMap.insert_lawless binSearch_range hm k v
  exact ⟨m', h1, h2, h3⟩

/-- One deletion with any comparison: one pair leaves a map that is not empty, and it is the one returned. -/
theorem C83_delete [Ord K] {m : OrdMap K V} (hm : m.Sound) (k : K) :
    (m.assoc = [] ∧ m.delete k = .ok (none, m)) ∨
    ∃ a e b m', m.assoc = a ++ e :: b ∧ m.delete k = .ok (some e, m') ∧ m'.Sound ∧ m'.assoc = a ++ b := by
  obtain ⟨r, m', h1, h2, h3⟩ := OrdMap.delete_lawless binSearch_range hm k
  rcases h3 with ⟨h3, rfl, -⟩ | ⟨a, e, b, h3, rfl, h4⟩
  · left
    refine ⟨h3, ?_⟩
    obtain ⟨h, hi'⟩ := hm.tree
    have ne := hi'.ne (by decide)
    have habs := abs_nil hi'
    obtain ⟨⟨lvl, g⟩, sz⟩ := id hi'
    have hne : order m.tree = [] := habs.mp (by simpa [OrdMap.assoc] using h3)
    simp only [OrdMap.delete, query_empty g.wf ne hne, bind_ok, pure_ok]
  · exact Or.inr ⟨a, e, b, m', h3, h1, h2, h4⟩

theorem lawlessRun_spec {m : OrdMap K V} (hm : m.Sound) (os : List ((K → K → Ordering) × SearchFn (Child (OrdCache K)) × OrdOp K V))
    (hs : ∀ o ∈ os, SearchInRange o.2.1) :
    ∃ rs m', lawlessRun m os = .ok (rs, m') ∧ m'.Sound ∧ LawlessRun m.assoc (os.map fun o => (o.1, o.2.2)) rs m'.assoc := by
  induction os generalizing m with
  | nil => exact ⟨[], m, rfl, hm, rfl, rfl⟩
  | cons o os ih =>
    obtain ⟨c, se, o⟩ := o
    have hse : SearchInRange se := hs (c, se, o) (by simp)
    have step : ∃ r m1, @OrdOp.runWith K V ⟨c⟩ se m o = .ok (r, m1) ∧ m1.Sound ∧ LawlessStep c m.assoc r m1.assoc o := by
      cases o with
      | insert k v =>
        obtain ⟨m1, h1, h2, h3⟩ := @OrdMap.insert_lawless K V ⟨c⟩ se hse m hm k v
        exact ⟨none, m1, by simp only [OrdOp.runWith, h1, bind_ok, pure_ok], h2, h3⟩
      | delete k => exact @OrdMap.delete_lawless K V ⟨c⟩ se hse m hm k
    obtain ⟨r, m1, h1, h2, h3⟩ := step
    obtain ⟨rs, m2, h4, h5, h6⟩ := ih h2 fun o ho => hs o (by simp [ho])
    exact ⟨r :: rs, m2, by simp only [lawlessRun, h1, h4, bind_ok, pure_ok], h5, r, rs, m1.assoc, rfl, h3, h6⟩

/-- Every history from `new()`, whatever the comparison answers in each call and whatever `binary_search_by` makes of it: no panic; each
operation does one of the things `LawlessStep` allows; the count is right; the tree passes `check()` and the iterator shows every pair. -/
theorem C83_history [DecidableEq K] (os : List ((K → K → Ordering) × SearchFn (Child (OrdCache K)) × OrdOp K V))
    (hs : ∀ o ∈ os, SearchInRange o.2.1) :
    ∃ rs m, lawlessRun OrdMap.new os = .ok (rs, m) ∧ LawlessRun [] (os.map fun o => (o.1, o.2.2)) rs m.assoc ∧
      m.len = m.assoc.length ∧ m.Sound ∧
      (m.len < 20155392 → m.iter = .ok m.assoc ∧ (m.assoc ≠ [] → check (ordTrait K V) m.tree = .ok ())) := by
  obtain ⟨rs, m, h1, h2, h3⟩ := lawlessRun_spec (OrdMap.new_sound (K := K) (V := V)) os hs
  have h0 : (OrdMap.new : OrdMap K V).assoc = [] := by
    simp only [OrdMap.assoc, OrdMap.new, new_entries, List.map_nil]
  rw [h0] at h3
  refine ⟨rs, m, h1, h3, h2.len, h2, fun hl => ⟨h2.iter hl, fun hne => ?_⟩⟩
  obtain ⟨h, hh, hi⟩ := h2.low hl
  rw [C06_check_iff (by decide) hi hh]
  intro he
  exact absurd (by simp [OrdMap.assoc, he]) hne

/-! ## Accounting: consequences of `LawlessRun` alone -/

/-- Nothing is invented: each key in the map and each key returned was inserted, and so was each value. -/
theorem C83_nothing_invented {os : List ((K → K → Ordering) × OrdOp K V)} {rs : List (Option (K × V))} {l : List (K × V)}
    (h : LawlessRun [] os rs l) :
    ∀ e, (e ∈ l ∨ some e ∈ rs) → (∃ p ∈ insertedPairs os, p.1 = e.1) ∧ (∃ p ∈ insertedPairs os, p.2 = e.2) := by
  suffices gen : ∀ (os : List ((K → K → Ordering) × OrdOp K V)) (l0 : List (K × V)) (rs : List (Option (K × V))) (l : List (K × V)),
      LawlessRun l0 os rs l → ∀ e, (e ∈ l ∨ some e ∈ rs) →
        (∃ p ∈ l0 ++ insertedPairs os, p.1 = e.1) ∧ (∃ p ∈ l0 ++ insertedPairs os, p.2 = e.2) by
    simpa using gen os [] rs l h
  clear h os rs l
  intro os
  induction os with
  | nil =>
    intro l0 rs l h e he
    obtain ⟨rfl, rfl⟩ := h
    have he : e ∈ l := by simpa using he
    exact ⟨⟨e, by simp [he], rfl⟩, ⟨e, by simp [he], rfl⟩⟩
  | cons o os ih =>
    intro l0 rs l h e he
    obtain ⟨c, o⟩ := o
    obtain ⟨r, rs', l1, rfl, hst, hrun⟩ := h
    have ih' := ih l1 rs' l hrun e
    -- what the list after the first step is made of
    have hl1 : ∀ p ∈ l1, (∃ p' ∈ l0 ++ insertedPairs ((c, o) :: os), p'.1 = p.1) ∧ (∃ p' ∈ l0 ++ insertedPairs ((c, o) :: os), p'.2 = p.2) := by
      intro p hp
      cases o with
      | insert k v =>
        obtain ⟨-, hst⟩ := hst
        simp only [insertedPairs]
        rcases hst with ⟨rfl, rfl⟩ | ⟨a, x, b, rfl, -, rfl⟩ | ⟨a, x, b, rfl, -, rfl⟩ | ⟨a, x, b, rfl, -, rfl⟩
        · simp only [List.mem_singleton] at hp; subst hp
          exact ⟨⟨_, by simp, rfl⟩, ⟨_, by simp, rfl⟩⟩
        · have : p ∈ a ++ x :: b ++ (k, v) :: insertedPairs os := by
            simp only [List.mem_append, List.mem_cons] at hp ⊢
            rcases hp with h | h | h | h <;> simp [h]
          exact ⟨⟨p, this, rfl⟩, ⟨p, this, rfl⟩⟩
        · have : p ∈ a ++ x :: b ++ (k, v) :: insertedPairs os := by
            simp only [List.mem_append, List.mem_cons] at hp ⊢
            rcases hp with h | h | h | h <;> simp [h]
          exact ⟨⟨p, this, rfl⟩, ⟨p, this, rfl⟩⟩
        · simp only [List.mem_append, List.mem_cons] at hp
          rcases hp with hp | rfl | hp
          · exact ⟨⟨p, by simp [hp], rfl⟩, ⟨p, by simp [hp], rfl⟩⟩
          · exact ⟨⟨x, by simp, rfl⟩, ⟨(k, v), by simp, rfl⟩⟩
          · exact ⟨⟨p, by simp [hp], rfl⟩, ⟨p, by simp [hp], rfl⟩⟩
      | delete k =>
        simp only [insertedPairs]
        have : p ∈ l0 := by
          rcases hst with ⟨rfl, -, rfl⟩ | ⟨a, x, b, rfl, -, rfl⟩
          · exact hp
          · simp only [List.mem_append, List.mem_cons] at hp ⊢
            rcases hp with h | h <;> simp [h]
        exact ⟨⟨p, by simp [this], rfl⟩, ⟨p, by simp [this], rfl⟩⟩
    have hos : ∀ p ∈ insertedPairs os, p ∈ insertedPairs ((c, o) :: os) := by
      intro p hp
      cases o <;> simp [insertedPairs, hp]
    have lift : (∃ p ∈ l1 ++ insertedPairs os, p.1 = e.1) ∧ (∃ p ∈ l1 ++ insertedPairs os, p.2 = e.2) →
        (∃ p ∈ l0 ++ insertedPairs ((c, o) :: os), p.1 = e.1) ∧ (∃ p ∈ l0 ++ insertedPairs ((c, o) :: os), p.2 = e.2) := by
      rintro ⟨⟨p, hp, e1⟩, ⟨q, hq, e2⟩⟩
      constructor
      · rcases List.mem_append.mp hp with hp | hp
        · obtain ⟨⟨p', h1, h2⟩, -⟩ := hl1 p hp
          exact ⟨p', h1, h2.trans e1⟩
        · exact ⟨p, List.mem_append_right _ (hos p hp), e1⟩
      · rcases List.mem_append.mp hq with hq | hq
        · obtain ⟨-, ⟨p', h1, h2⟩⟩ := hl1 q hq
          exact ⟨p', h1, h2.trans e2⟩
        · exact ⟨q, List.mem_append_right _ (hos q hq), e2⟩
    rcases he with he | he
    · exact lift (ih' (Or.inl he))
    · rcases List.mem_cons.mp he with he | he
      · -- returned by the first step
        cases o with
        | insert k v => rw [hst.1] at he; cases he
        | delete k =>
          rcases hst with ⟨-, rfl, -⟩ | ⟨a, x, b, rfl, rfl, -⟩
          · cases he
          · cases he
            exact ⟨⟨e, by simp, rfl⟩, ⟨e, by simp, rfl⟩⟩
      · exact lift (ih' (Or.inr he))

/-- Nothing is lost: if no comparison answers "equal", the pairs in the map and the pairs returned are exactly the pairs inserted, each
as often as it was inserted. -/
theorem C83_nothing_lost {os : List ((K → K → Ordering) × OrdOp K V)} (hne : ∀ o ∈ os, ∀ a b, o.1 a b ≠ .eq)
    {rs : List (Option (K × V))} {l : List (K × V)} (h : LawlessRun [] os rs l) :
    List.Perm (l ++ rs.filterMap id) (insertedPairs os) := by
  suffices gen : ∀ (os : List ((K → K → Ordering) × OrdOp K V)), (∀ o ∈ os, ∀ a b, o.1 a b ≠ .eq) →
      ∀ (l0 : List (K × V)) (rs : List (Option (K × V))) (l : List (K × V)),
      LawlessRun l0 os rs l → List.Perm (l ++ rs.filterMap id) (l0 ++ insertedPairs os) by
    simpa using gen os hne [] rs l h
  clear h hne os rs l
  intro os
  induction os with
  | nil =>
    intro _ l0 rs l h
    obtain ⟨rfl, rfl⟩ := h
    simp [insertedPairs]
  | cons o os ih =>
    intro hne l0 rs l h
    obtain ⟨c, o⟩ := o
    obtain ⟨r, rs', l1, rfl, hst, hrun⟩ := h
    have ih' := ih (fun o ho => hne o (by simp [ho])) l1 rs' l hrun
    cases o with
    | insert k v =>
      obtain ⟨rfl, hst⟩ := hst
      simp only [insertedPairs, List.filterMap_cons, id_eq]
      refine ih'.trans ?_
      have : List.Perm l1 ((k, v) :: l0) := by
        rcases hst with ⟨rfl, rfl⟩ | ⟨a, x, b, rfl, -, rfl⟩ | ⟨a, x, b, rfl, -, rfl⟩ | ⟨a, x, b, rfl, hc, rfl⟩
        · exact List.Perm.refl _
        · have := List.perm_middle (a := (k, v)) (l₁ := a ++ [x]) (l₂ := b)
          simpa using this
        · exact List.perm_middle
        · exact absurd hc (hne (c, .insert k v) (by simp) _ _)
      exact (this.append_right _).trans (by simpa using (List.perm_middle (a := (k, v)) (l₁ := l0) (l₂ := insertedPairs os)).symm)
    | delete k =>
      simp only [insertedPairs]
      rcases hst with ⟨rfl, rfl, rfl⟩ | ⟨a, x, b, rfl, rfl, rfl⟩
      · simpa using ih'
      · simp only [List.filterMap_cons, id_eq]
        refine List.perm_middle.trans ?_
        refine (ih'.cons x).trans ?_
        simpa using (List.perm_middle (a := x) (l₁ := a) (l₂ := b ++ insertedPairs os)).symm

/-- In any case every operation gives one result, and the map and the pairs returned are together no more than the pairs inserted (an
insertion under a key called equal adds none). -/
theorem C83_count {os : List ((K → K → Ordering) × OrdOp K V)} {rs : List (Option (K × V))} {l : List (K × V)} (h : LawlessRun [] os rs l) :
    rs.length = os.length ∧ l.length + (rs.filterMap id).length ≤ (insertedPairs os).length := by
  suffices gen : ∀ (os : List ((K → K → Ordering) × OrdOp K V)) (l0 : List (K × V)) (rs : List (Option (K × V))) (l : List (K × V)),
      LawlessRun l0 os rs l → rs.length = os.length ∧ l.length + (rs.filterMap id).length ≤ l0.length + (insertedPairs os).length by
    simpa using gen os [] rs l h
  clear h os rs l
  intro os
  induction os with
  | nil =>
    intro l0 rs l h
    obtain ⟨rfl, rfl⟩ := h
    simp [insertedPairs]
  | cons o os ih =>
    intro l0 rs l h
    obtain ⟨c, o⟩ := o
    obtain ⟨r, rs', l1, rfl, hst, hrun⟩ := h
    obtain ⟨ih1, ih2⟩ := ih l1 rs' l hrun
    refine ⟨by simp [ih1], ?_⟩
    cases o with
    | insert k v =>
      obtain ⟨rfl, hst⟩ := hst
      simp only [insertedPairs, List.filterMap_cons, id_eq, List.length_cons]
      rcases hst with ⟨rfl, rfl⟩ | ⟨a, x, b, rfl, -, rfl⟩ | ⟨a, x, b, rfl, -, rfl⟩ | ⟨a, x, b, rfl, -, rfl⟩ <;>
        simp only [List.length_append, List.length_cons, List.length_nil] at ih2 ⊢ <;> omega
    | delete k =>
      simp only [insertedPairs]
      rcases hst with ⟨rfl, rfl, rfl⟩ | ⟨a, x, b, rfl, rfl, rfl⟩
      · simpa using ih2
      · simp only [List.filterMap_cons, id_eq, List.length_append, List.length_cons] at ih2 ⊢
        omega

end

/-- rock, paper, scissors: a comparison that runs in a circle -/
def rps (a b : Nat) : Ordering := if a % 3 = b % 3 then .eq else if (a + 1) % 3 = b % 3 then .lt else .gt

/-- Two hundred insertions with the circular comparison, then a hundred deletions with a comparison that always says "greater". -/
example : ∃ rs m, lawlessRun (OrdMap.new : OrdMap Nat Nat)
    ((List.range 200).map (fun i => (rps, binSearch, .insert i (i * i))) ++
     (List.range 100).map (fun i => (fun _ _ => .gt, binSearch2, .delete i))) = .ok (rs, m) ∧ m.Sound ∧ rs.length = 300 := by
  obtain ⟨rs, m, h1, h2, -, h3, -⟩ := C83_history (K := Nat) (V := Nat)
    ((List.range 200).map (fun i => (rps, binSearch, .insert i (i * i))) ++
     (List.range 100).map (fun i => (fun _ _ => .gt, binSearch2, .delete i))) (by
      intro o ho
      simp only [List.mem_append, List.mem_map] at ho
      rcases ho with ⟨i, -, rfl⟩ | ⟨i, -, rfl⟩
      · exact binSearch_range
      · exact binSearch2_range)
  exact ⟨rs, m, h1, h3, by rw [(C83_count h2).1]; simp⟩

/-- With a comparison that never says "equal" one key can be stored many times; a map still holds every copy. -/
example : ∃ m, lawlessRun (OrdMap.new : OrdMap Nat Nat) ((List.range 50).map fun i => (fun _ _ => .lt, binSearch, .insert 7 i)) =
    .ok (List.replicate 50 none, m) ∧ m.len = 50 ∧ m.iter = .ok m.assoc ∧ (∀ i < 50, (7, i) ∈ m.assoc) := by
  obtain ⟨rs, m, h1, h2, h3, -, h4⟩ := C83_history (K := Nat) (V := Nat)
    ((List.range 50).map fun i => (fun _ _ => .lt, binSearch, .insert 7 i)) (by
      intro o ho
      obtain ⟨i, -, rfl⟩ := List.mem_map.mp ho
      exact binSearch_range)
  have hins : ∀ (r : List Nat), insertedPairs ((r.map fun i => ((fun _ _ => .lt, binSearch, .insert 7 i) :
      (Nat → Nat → Ordering) × SearchFn (Child (OrdCache Nat)) × OrdOp Nat Nat)).map fun o => (o.1, o.2.2)) = r.map fun i => (7, i) := by
    intro r
    induction r with
    | nil => rfl
    | cons i r ih => simp only [List.map_cons, insertedPairs, ih]
  have hrs : ∀ (r : List Nat) (l0 l : List (Nat × Nat)) (rs : List (Option (Nat × Nat))), LawlessRun l0 ((r.map fun i => ((fun _ _ => .lt, binSearch, .insert 7 i) :
      (Nat → Nat → Ordering) × SearchFn (Child (OrdCache Nat)) × OrdOp Nat Nat)).map fun o => (o.1, o.2.2)) rs l → rs = List.replicate r.length none := by
    intro r
    induction r with
    | nil => intro l0 l rs h; exact h.1
    | cons i r ih =>
      intro l0 l rs h
      obtain ⟨a, rs', l1, rfl, ⟨rfl, -⟩, h⟩ := h
      rw [ih l1 l rs' h]; rfl
  have e := hrs _ _ _ _ h2
  rw [List.length_range] at e
  have hp := C83_nothing_lost (by
    intro o ho a b
    obtain ⟨x, hx, rfl⟩ := List.mem_map.mp ho
    obtain ⟨i, -, rfl⟩ := List.mem_map.mp hx
    simp) h2
  rw [hins, e] at hp
  have hp' : List.Perm m.assoc ((List.range 50).map fun i => (7, i)) := by simpa using hp
  have hl : m.len = 50 := by rw [h3, hp'.length_eq]; simp
  refine ⟨m, by rw [h1, e], hl, (h4 (by omega)).1, ?_⟩
  intro i hi
  rw [hp'.mem_iff]
  exact List.mem_map.mpr ⟨i, List.mem_range.mpr hi, rfl⟩

example (k : Nat) (v : Nat) := @C83_insert Nat Nat ⟨rps⟩ OrdMap.new OrdMap.new_sound k v
example (k : Nat) := @C83_delete Nat Nat ⟨rps⟩ OrdMap.new OrdMap.new_sound k

end GB

import Verif.Proof.Searches

/-!
# C73: `OrdTreeMap` does not depend on the algorithm behind `binary_search_by`
-/

namespace GB
open Tree

/-- The algorithms of the standard library before and since rustc 1.82 meet the documented contract. -/
theorem C73_contracts {α : Type} : SearchContract (binSearch (α := α)) ∧ SearchContract (binSearch2 (α := α)) :=
  ⟨contract_of_index binSearch_spec, binSearch2_contract⟩

section
variable {K V : Type} [Ord K] [Std.TransOrd K]

/-- Over any search that meets the contract, looking up a key ends at the same cursor. -/
theorem C73_query {search : SearchFn (Child (OrdCache K))} (hs : SearchContract search) {m : OrdMap K V} (hm : m.Ok) (k : K) :
    query (ordQueryWith V search) m.tree k = query (ordQuery K V) m.tree k :=
  ordQuery_any hs.once binSearch_once hm k

/-- Insertion gives the same map, node for node. -/
theorem C73_insert {search : SearchFn (Child (OrdCache K))} (hs : SearchContract search) {m : OrdMap K V} (hm : m.Ok) (k : K) (v : V) :
    m.insertWith search k v = m.insert k v := by
  rw [OrdMap.insertWith, C73_query hs hm]
  rfl

/-- Deletion gives the same result and the same map, node for node. -/
theorem C73_delete {search : SearchFn (Child (OrdCache K))} (hs : SearchContract search) {m : OrdMap K V} (hm : m.Ok) (k : K) :
    m.deleteWith search k = m.delete k := by
  rw [OrdMap.deleteWith, C73_query hs hm]
  rfl

/-- Any two searches that meet the contract give the same histories: the same results and the same maps, whichever keys are inserted
and deleted. -/
theorem C73_history {search search' : SearchFn (Child (OrdCache K))} (hs : SearchContract search) (hs' : SearchContract search') {m : OrdMap K V}
    (hm : m.Ok) (os : List (OrdOp K V)) : ordRunWith search m os = ordRunWith search' m os := by
  have key : ∀ {se : SearchFn (Child (OrdCache K))}, SearchContract se → ∀ (os : List (OrdOp K V)) {m : OrdMap K V}, m.Ok →
      ordRunWith se m os = ordRun m os := by
    intro se hse os
    induction os with
    | nil => intro m _; rfl
    | cons o os ih =>
      intro m hm
      cases o with
      | insert k v =>
        obtain ⟨m', h1, h2, -⟩ := OrdMap.insert_spec hm k v
        simp only [ordRunWith, ordRun, OrdOp.runWith, OrdOp.run, C73_insert hse hm, h1, bind_ok, pure_ok, ih h2]
      | delete k =>
        simp only [ordRunWith, ordRun, OrdOp.runWith, OrdOp.run, C73_delete hse hm]
        rcases OrdMap.delete_spec hm k with ⟨-, h1⟩ | ⟨a, e, b, m', -, -, -, h1, h2, -⟩
        · simp only [h1, bind_ok, ih hm]
        · simp only [h1, bind_ok, ih h2]
  rw [key hs os hm, key hs' os hm]

/-- A history from `new()` over any search agrees with the model of the other properties. -/
theorem C73_history_new {search : SearchFn (Child (OrdCache K))} (hs : SearchContract search) (os : List (OrdOp K V)) :
    ordRunWith search OrdMap.new os = ordRun OrdMap.new os := by
  rw [C73_history hs C73_contracts.1 OrdMap.new_ok os]
  clear hs search
  suffices ∀ (os : List (OrdOp K V)) (m : OrdMap K V), ordRunWith binSearch m os = ordRun m os from this os _
  intro os
  induction os with
  | nil => intro m; rfl
  | cons o os ih =>
    intro m
    simp only [ordRunWith, ordRun]
    have : o.runWith binSearch m = o.run m := by cases o <;> rfl
    rw [this]
    simp only [ih]

end

/-- a search from left to right -/
def linSearchF {α : Type} (f : α → M Ordering) : List α → Nat → M (Nat ⊕ Nat)
  | [], i => .ok (.inr i)
  | x :: l, i => do
    match ← f x with
    | .lt => linSearchF f l (i + 1)
    | .eq => pure (.inl i)
    | .gt => pure (.inr i)

/-- The contract admits algorithms of another kind. -/
theorem C73_linear {α : Type} : SearchContract (fun (f : α → M Ordering) l => linSearchF f l 0) := by
  intro f l cmp hf hp
  suffices ∀ (l : List α) (i : Nat), (∀ x ∈ l, f x = .ok (cmp x)) → Partitioned cmp l →
      (∃ a x b, l = a ++ x :: b ∧ cmp x = .eq ∧ linSearchF f l i = .ok (.inl (i + a.length))) ∨
      (∃ a b, l = a ++ b ∧ (∀ x ∈ a, cmp x = .lt) ∧ (∀ x ∈ b, cmp x = .gt) ∧ linSearchF f l i = .ok (.inr (i + a.length))) by
    simpa using this l 0 hf hp
  clear hf hp l
  intro l
  induction l with
  | nil => intro i _ _; exact Or.inr ⟨[], [], rfl, by simp, by simp, rfl⟩
  | cons x l ih =>
    intro i hf hp
    have hx := hf x (by simp)
    rw [linSearchF, hx, bind_ok]
    cases hc : cmp x with
    | eq => exact Or.inl ⟨[], x, l, rfl, hc, rfl⟩
    | gt =>
      refine Or.inr ⟨[], x :: l, rfl, by simp, ?_, rfl⟩
      intro y hy
      obtain ⟨j, hj⟩ := List.mem_iff_getElem?.mp hy
      exact (mono_of_partitioned hp).2 0 j x y (by omega) rfl hj hc
    | lt =>
      have hp' : Partitioned cmp l := by
        obtain ⟨a, b, c, e, ha, hb, hc'⟩ := hp
        cases a with
        | cons y a => cases e; exact ⟨a, b, c, rfl, fun z hz => ha z (by simp [hz]), hb, hc'⟩
        | nil =>
          have : x ∈ b ++ c := by rw [List.nil_append] at e; rw [← e]; simp
          rcases List.mem_append.mp this with h | h
          · rw [hb x h] at hc; cases hc
          · rw [hc' x h] at hc; cases hc
      rcases ih (i + 1) (fun y hy => hf y (by simp [hy])) hp' with ⟨a, y, b, e, h1, h2⟩ | ⟨a, b, e, h1, h2, h3⟩
      · refine Or.inl ⟨x :: a, y, b, by rw [e]; rfl, h1, ?_⟩
        rw [h2]; simp only [List.length_cons]; congr 2; omega
      · refine Or.inr ⟨x :: a, b, by rw [e]; rfl, ?_, h2, ?_⟩
        · intro z hz
          rcases List.mem_cons.mp hz with rfl | hz
          · exact hc
          · exact h1 z hz
        · rw [h3]; simp only [List.length_cons]; congr 2; omega

/-- The contract leaves room: with several matches the three algorithms return three different positions.  So C73 needs that a key lies
within at most one child. -/
theorem C73_choice : binSearch (fun x => .ok (compare x 5)) [5, 5, 5, 5] = .ok (.inl 2) ∧
    binSearch2 (fun x => .ok (compare x 5)) [5, 5, 5, 5] = .ok (.inl 3) ∧ linSearchF (fun x => .ok (compare x 5)) [5, 5, 5, 5] 0 = .ok (.inl 0) :=
  ⟨rfl, rfl, rfl⟩

/-- the hypotheses are met: twenty bindings, inserted out of order, looked up and deleted over the two algorithms of the library and
the linear one -/
example : ∃ rs m, ordRunWith binSearch2 (OrdMap.new : OrdMap Nat Nat)
      ((List.range 20).map (fun i => .insert (i * 7 % 20) i) ++ [.delete 13, .delete 4]) = .ok (rs, m) ∧
    ordRunWith (fun f l => linSearchF f l 0) (OrdMap.new : OrdMap Nat Nat)
      ((List.range 20).map (fun i => .insert (i * 7 % 20) i) ++ [.delete 13, .delete 4]) = .ok (rs, m) ∧ m.Ok := by
  obtain ⟨rs, m, h1, h2⟩ := ordRun_ok (OrdMap.new_ok (K := Nat) (V := Nat))
    ((List.range 20).map (fun i => .insert (i * 7 % 20) i) ++ [.delete 13, .delete 4])
  exact ⟨rs, m, by rw [C73_history_new C73_contracts.2]; exact h1, by rw [C73_history_new C73_linear]; exact h1, h2⟩

example : query (ordQueryWith Nat binSearch2) ordMapSample.tree 22 = query (ordQuery Nat Nat) ordMapSample.tree 22 := C73_query C73_contracts.2 ordMapSample_ok.1 22

example := C73_insert C73_contracts.2 ordMapSample_ok.1 23 7

example := C73_delete C73_linear ordMapSample_ok.1 22

example := C73_history C73_contracts.2 C73_linear ordMapSample_ok.1 [.insert 23 7, .delete 22, .delete 41]

end GB

import Verif.Model.FilterIter
import Verif.Spec.Levels
import Verif.Proof.FilterMutSpec

/-!
# `iter_with_filter` as an iterator
-/

namespace GB
variable {E C D R σ : Type}
open Tree

/-- a queue that holds a row of subtrees -/
def RowOf (s : Tree E C) (lvl : Nat → Nat) (n : Nat) : List (Idx × R) → List (Shape C E n × R) → Prop
  | [], [] => True
  | x :: q, y :: row => AtLvl s lvl n x.1 ∧ shapeOf s n x.1 = some y.1 ∧ y.2 = x.2 ∧ RowOf s lvl n q row
  | _, _ => False

section
variable {s : Tree E C} {lvl : Nat → Nat} {h : Nat}

theorem RowOf.append {n : Nat} : ∀ {q q' : List (Idx × R)} {row row' : List (Shape C E n × R)}, RowOf s lvl n q row → RowOf s lvl n q' row' →
    RowOf s lvl n (q ++ q') (row ++ row') := by
  intro q
  induction q with
  | nil =>
    intro q' row row' h1 h2
    cases row with
    | nil => exact h2
    | cons => exact h1.elim
  | cons x q ih =>
    intro q' row row' h1 h2
    cases row with
    | nil => exact h1.elim
    | cons y row => exact ⟨h1.1, h1.2.1, h1.2.2.1, ih h1.2.2.2 h2⟩

theorem filterStChildren_row (add : R → R → R) (f : σ → C → σ × Bool × R) {n : Nat} : ∀ (cs : List (Child C)) (ts : List (C × Shape C E n)) (st : σ) (r : R),
    (∀ c ∈ cs, AtLvl s lvl n c.arena) → (cs.mapM fun c => (shapeOf s n c.arena).map fun t => (c.cache, t)) = some ts →
    (filterStChildren add f st cs r).1 = (askNode add f st ts r).1 ∧
    RowOf s lvl n (filterStChildren add f st cs r).2 (askNode add f st ts r).2 ∧
    ((filterStChildren add f st cs r).2.map fun x => size s n x.1).sum ≤ (cs.map fun c => size s n c.arena).sum := by
  intro cs
  induction cs with
  | nil =>
    intro ts st r _ h
    simp only [List.mapM_nil, Option.pure_def, Option.some.injEq] at h
    subst h
    exact ⟨rfl, trivial, by simp [filterStChildren]⟩
  | cons c cs ih =>
    intro ts st r hl h
    rw [List.mapM_cons] at h
    cases h1 : shapeOf s n c.arena with
    | none => rw [h1] at h; simp at h
    | some t =>
      cases h2 : (cs.mapM fun c => (shapeOf s n c.arena).map fun t => (c.cache, t)) with
      | none => rw [h1, h2] at h; simp at h
      | some ts' =>
        rw [h1, h2] at h
        simp only [Option.map_some, Option.bind_eq_bind, Option.bind_some, Option.pure_def, Option.some.injEq] at h
        subst h
        obtain ⟨k1, k2, k3⟩ := ih ts' (f st c.cache).1 (add r (f st c.cache).2.2) (fun c hc => hl c (by simp [hc])) h2
        simp only [filterStChildren, askNode]
        refine ⟨k1, ?_, ?_⟩
        · split
          · exact ⟨hl c (by simp), h1, rfl, k2⟩
          · exact k2
        · split
          · exact Nat.add_le_add_left k3 _
          · exact Nat.le_trans k3 (Nat.le_add_left _ _)

/-- a row is worked off before the next one begins -/
theorem filterNextF_row (w : WF s lvl h) (add : R → R → R) (f : σ → C → σ × Bool × R) {n : Nat} : ∀ (q : List (Idx × R))
    (row : List (Shape C E (n + 1) × R)) (q2 : List (Idx × R)) (st : σ) (fuel : Nat), RowOf s lvl (n + 1) q row →
    ∃ q', RowOf s lvl n q' (askRow add f st row).2 ∧
      (q'.map fun x => size s n x.1).sum + q.length ≤ (q.map fun x => size s (n + 1) x.1).sum ∧
      filterNextF add f s (fuel + q.length) ⟨q ++ q2, st⟩ = filterNextF add f s fuel ⟨q2 ++ q', (askRow add f st row).1⟩ := by
  intro q
  induction q with
  | nil =>
    intro row q2 st fuel hr
    cases row with
    | cons => exact hr.elim
    | nil => exact ⟨[], trivial, by simp, by simp [askRow]⟩
  | cons x q ih =>
    intro row q2 st fuel hr
    cases row with
    | nil => exact hr.elim
    | cons y row =>
      obtain ⟨a, r⟩ := x
      obtain ⟨ts, r'⟩ := y
      obtain ⟨h0, h1, h2, h3⟩ := hr
      cases h2
      obtain ⟨x, rfl, hx⟩ := h0.succ
      obtain ⟨N, hN⟩ := lnk_isSome.mp hx
      simp only [shapeOf] at h1
      have hl : ∀ c ∈ chs s x, AtLvl s lvl n c.arena := fun c hc =>
        h0.kid w _ (by rw [kids_chs]; exact List.mem_map.mpr ⟨c, hc, rfl⟩)
      obtain ⟨k1, k2, k3⟩ := filterStChildren_row add f (chs s x) ts st r hl h1
      obtain ⟨q', m1, m2, m3⟩ := ih row (q2 ++ (filterStChildren add f st (chs s x) r).2) (askNode add f st ts r).1 fuel h3
      refine ⟨(filterStChildren add f st (chs s x) r).2 ++ q', k2.append m1, ?_, ?_⟩
      · simp only [List.map_append, List.sum_append, List.map_cons, List.sum_cons, List.length_cons, size, kids_chs, List.map_map]
        have : (List.map (size s n ∘ Child.arena) (chs s x)).sum = ((chs s x).map fun c => size s n c.arena).sum := rfl
        omega
      · rw [List.length_cons, ← Nat.add_assoc]
        simp only [List.cons_append, filterNextF, getIn_ok hN, bind_ok, ← chs_of hN]
        rw [k1, List.append_assoc, m3]
        simp only [List.append_assoc]
        rfl

theorem RowOf.leaf {a : Idx} {r : R} {q : List (Idx × R)} {row : List (Shape C E 0 × R)} (hr : RowOf s lvl 0 ((a, r) :: q) row) :
    ∃ l e p, a = .leaf l ∧ s.lf.get l = some ⟨e, p⟩ ∧ ∃ row', row = (e, r) :: row' ∧ RowOf s lvl 0 q row' := by
  cases row with
  | nil => exact hr.elim
  | cons y row =>
    obtain ⟨t, r'⟩ := y
    obtain ⟨h0, h1, h2, h3⟩ := hr
    cases h2
    cases a with
    | internal x => simp [shapeOf] at h1
    | leaf l =>
      obtain ⟨p, hp⟩ := Option.ne_none_iff_exists'.mp h0.2
      obtain ⟨e, hL, he⟩ := getLf_of hp
      have h1 : (elm s l : Option E) = some t := h1
      rw [he] at h1
      cases h1
      exact ⟨l, t, p, rfl, hL, row, rfl, h3⟩

/-- one call of `next` -/
theorem filterNextF_spec (w : WF s lvl h) (add : R → R → R) (f : σ → C → σ × Bool × R) : ∀ (n : Nat) (q : List (Idx × R)) (row : List (Shape C E n × R)) (st : σ) (fuel : Nat),
    RowOf s lvl n q row → (q.map fun x => size s n x.1).sum < fuel →
    ∃ q' row', RowOf s lvl 0 q' row' ∧ row'.map (fun x => (x.2, x.1)) = (Shape.levels add f n st row).2.tail ∧
      q'.length ≤ (q.map fun x => size s n x.1).sum ∧
      filterNextF add f s fuel ⟨q, st⟩ = .ok ((Shape.levels add f n st row).2.head?, ⟨q', (Shape.levels add f n st row).1⟩) := by
  intro n
  induction n with
  | zero =>
    intro q row st fuel hr hf
    obtain ⟨fuel, rfl⟩ : ∃ k, fuel = k + 1 := ⟨fuel - 1, by omega⟩
    cases q with
    | nil =>
      cases row with
      | cons => exact hr.elim
      | nil => exact ⟨[], [], trivial, rfl, by simp, rfl⟩
    | cons x q =>
      obtain ⟨a, r⟩ := x
      obtain ⟨l, e, p, rfl, hL, row', rfl, h3⟩ := hr.leaf
      refine ⟨q, row', h3, rfl, ?_, ?_⟩
      · have : ∀ q : List (Idx × R), q.length ≤ (q.map fun x => size s 0 x.1).sum := by
          intro q
          induction q with
          | nil => simp
          | cons y q ih =>
            obtain ⟨b, _⟩ := y
            cases b <;> simp only [List.map_cons, List.sum_cons, List.length_cons, size] <;> omega
        have := this q
        simp only [List.map_cons, List.sum_cons]
        omega
      · simp only [filterNextF, getLf_ok hL, bind_ok, pure_ok, Shape.levels]
        rfl
  | succ n ih =>
    intro q row st fuel hr hf
    obtain ⟨q1, m1, m2, m3⟩ := filterNextF_row w add f q row [] st (fuel - q.length) hr
    obtain ⟨q', row', k1, k2, k3, k4⟩ := ih q1 _ (askRow add f st row).1 (fuel - q.length) m1 (by omega)
    refine ⟨q', row', k1, k2, by omega, ?_⟩
    rw [show fuel - q.length + q.length = fuel by omega, List.append_nil, List.nil_append] at m3
    rw [m3, k4]
    rfl

/-- later calls of `next` work off the last row -/
theorem filterCalls_leaves (w : WF s lvl h) (add : R → R → R) (f : σ → C → σ × Bool × R) (st : σ) : ∀ (k : Nat) (q : List (Idx × R)) (row : List (Shape C E 0 × R)),
    RowOf s lvl 0 q row → q.length < leafFuel s →
    ∃ q', filterCalls add f s k ⟨q, st⟩ = .ok ((List.range k).map fun i => (row.map fun x => (x.2, x.1))[i]?, ⟨q', st⟩) := by
  intro k
  induction k with
  | zero => intro q row _ _; exact ⟨q, rfl⟩
  | succ k ih =>
    intro q row hr hf
    have hsz : (q.map fun x => size s 0 x.1).sum = q.length := by
      clear hr hf
      induction q with
      | nil => rfl
      | cons y q ih =>
        obtain ⟨b, _⟩ := y
        cases b <;> simp only [List.map_cons, List.sum_cons, List.length_cons, size, ih] <;> omega
    obtain ⟨q', row', k1, k2, k3, k4⟩ := filterNextF_spec w add f 0 q row st (leafFuel s) hr (by omega)
    obtain ⟨q'', k5⟩ := ih q' row' k1 (by omega)
    refine ⟨q'', ?_⟩
    simp only [filterCalls, filterNext, k4, bind_ok, k5, pure_ok, Shape.levels] at k2 ⊢
    rw [List.range_succ_eq_map, List.map_cons, k2]
    congr 2
    cases row with
    | nil => simp; exact ⟨rfl, fun _ _ => rfl⟩
    | cons y row => simp; exact ⟨rfl, fun _ _ => rfl⟩

/-- any number of calls -/
theorem filterCalls_spec (w : WF s lvl h) (zero : R) (add : R → R → R) (f : σ → C → σ × Bool × R) (st : σ) (k : Nat) :
    ∃ t it, shapeOf s h (.internal s.root) = some t ∧
      filterCalls add f s k (filterStart zero s st) = .ok ((List.range k).map fun i => (Shape.levels add f h st [(t, zero)]).2[i]?, it) ∧
      it.st = if k = 0 then st else (Shape.levels add f h st [(t, zero)]).1 := by
  obtain ⟨t, -, ht, -⟩ := updateFilter_spec w (fun (_ : Unit) (c : C) => ((), c, true)) (fun _ e => ((), e)) ()
  obtain ⟨i, hi⟩ := w.root'
  have hr : AtLvl s lvl h (.internal s.root) := ⟨by rw [hi]; simp, w.root_lvl⟩
  cases k with
  | zero => exact ⟨t, _, ht, rfl, rfl⟩
  | succ k =>
    have hsz := size_root_le w
    obtain ⟨q', row', k1, k2, k3, k4⟩ := filterNextF_spec w add f h [(.internal s.root, zero)] [(t, zero)] st (leafFuel s) ⟨hr, ht, rfl, trivial⟩ (by
      simp only [List.map_cons, List.map_nil, List.sum_cons, List.sum_nil, leafFuel]
      omega)
    obtain ⟨q'', k5⟩ := filterCalls_leaves w add f (Shape.levels add f h st [(t, zero)]).1 k q' row' k1 (by
      simp only [List.map_cons, List.map_nil, List.sum_cons, List.sum_nil] at k3
      simp only [leafFuel]
      omega)
    refine ⟨t, ⟨q'', (Shape.levels add f h st [(t, zero)]).1⟩, ht, ?_, rfl⟩
    simp only [filterCalls, filterNext, filterStart, k4, bind_ok, k5, pure_ok]
    rw [List.range_succ_eq_map, List.map_cons, k2]
    congr 2
    generalize (Shape.levels add f h st [(t, zero)]).2 = L
    cases L with
    | nil => simp; exact fun _ _ => rfl
    | cons y L => simp; exact fun _ _ => rfl

end
end GB

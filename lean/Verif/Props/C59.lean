import Verif.Model.Harness
import Verif.Props.C48

/-!
# C59: the tests of the range map hold for all sizes

The tests of `tests/integration.rs` with their constants (100, 50, 80, 25, 110) made parameters.  They pass for every size up to 781 000,
every value, and every order in which the hash maps are visited.
-/

namespace GB
open Tree

/-- the map is valid, has at least `n` and at most `N` positions, and position `i` shows `f i` -/
structure Holds (s : RangeMap) (n N : Nat) (f : Nat → Option Int) : Prop where
  inv : Inv rangeLaw 5 s
  lo : n ≤ s.cells.length
  hi : s.cells.length ≤ N
  get : ∀ i, s.cells[i]?.join = f i

theorem Holds.low {s : RangeMap} {n N : Nat} {f : Nat → Option Int} (h : Holds s n N f) (hN : N ≤ 781010) : ∃ k, k ≤ 8 ∧ InvH rangeLaw 5 k s :=
  C18_height h.inv (by decide) (by have := RangeMap.entries_le h.inv; have := h.hi; omega)

theorem Holds.new : Holds RangeMap.new 0 10 fun _ => none where
  inv := ⟨1, new_inv rangeLaw 5⟩
  lo := Nat.zero_le _
  hi := by rw [RangeMap.cells, RangeMap.new, new_entries]; exact Nat.zero_le _
  get := fun i => by rw [RangeMap.cells, RangeMap.new, new_entries]; rfl

theorem Holds.step {s : RangeMap} {n N : Nat} {f : Nat → Option Int} (h : Holds s n N f) (hN : N ≤ 781010) {o : RangeOp} (ho : o.stop ≤ 781000)
    (hv : o.validOn s.cells) {hash : HashOrd RElem} (hho : ∀ l, (hash.idx l).Perm l) :
    ∃ s', o.run hash s = .ok s' ∧ Inv rangeLaw 5 s' ∧ s'.cells = o.apply s.cells := by
  obtain ⟨s', h1, h2, h3, -⟩ := RangeOp.run_spec (m := 5) (by decide) h.inv (.inl fun s' i1 _ c1 => C18_height i1 (by decide) (by
    have := RangeMap.entries_le i1
    have := h.hi
    rw [c1, RangeMap.cellsReserve_length] at *
    split at * <;> omega)) hho hv
  exact ⟨s', h1, h2, h3⟩

theorem Holds.insert {s : RangeMap} {n N : Nat} {f : Nat → Option Int} (h : Holds s n N f) (hN : N ≤ 781010) {a b : Nat} (hab : a ≤ b)
    (hb : b ≤ 781000) (h0 : 0 < b ∨ 0 < n) {hash : HashOrd RElem} (hho : ∀ l, (hash.idx l).Perm l) (v : Int) :
    ∃ s', RangeMap.insert hash s a b v = .ok s' ∧ Holds s' (max n b) (max N (b + 10)) fun i => if a ≤ i ∧ i < b then some v else f i := by
  obtain ⟨s', h1, h2, h3⟩ := h.step hN (o := .insert a b v) hb ⟨hab, h0.imp id fun hn hc => by have := h.lo; simp [hc] at this; omega⟩ hho
  have hle := RangeMap.cellsReserve_le s.cells b
  have hlen : s'.cells.length = (cellsReserve s.cells b).length := by rw [h3, RangeOp.apply, RangeMap.cellsMap_length _ _ hab hle]
  have h4 := RangeMap.cellsReserve_length s.cells b
  have := h.lo; have := h.hi
  refine ⟨s', h1, h2, ?_, ?_, fun i => ?_⟩
  · split at h4 <;> omega
  · split at h4 <;> omega
  · rw [h3, RangeOp.apply, RangeMap.cellsMap_getElem _ _ hab hle]
    split
    · rw [List.getElem?_eq_getElem (by omega)]; rfl
    · rw [RangeMap.cellsReserve_get, h.get]

theorem Holds.plus {s : RangeMap} {n N : Nat} {f : Nat → Option Int} (h : Holds s n N f) (hN : N ≤ 781010) {a b : Nat} (hab : a ≤ b)
    (hb : b ≤ 781000) {hash : HashOrd RElem} (hho : ∀ l, (hash.idx l).Perm l) (d : Int) :
    ∃ s', RangeMap.plus hash s a b d = .ok s' ∧ Holds s' n (max N (b + 10)) fun i => if a ≤ i ∧ i < b then (f i).map (· + d) else f i := by
  obtain ⟨s', h1, h2, h3⟩ := h.step hN (o := .plus a b d) hb hab hho
  have hle := RangeMap.cellsReserve_le s.cells b
  have hlen : s'.cells.length = (cellsReserve s.cells b).length := by rw [h3, RangeOp.apply, RangeMap.cellsMap_length _ _ hab hle]
  have h4 := RangeMap.cellsReserve_length s.cells b
  have := h.lo; have := h.hi
  refine ⟨s', h1, h2, ?_, ?_, fun i => ?_⟩
  · split at h4 <;> omega
  · split at h4 <;> omega
  · rw [h3, RangeOp.apply, RangeMap.cellsMap_getElem _ _ hab hle, ← h.get, ← RangeMap.cellsReserve_get s.cells b]
    split
    · cases (cellsReserve s.cells b)[i]? <;> rfl
    · rfl

theorem rangeFill_spec {ho : Nat → HashOrd RElem} (hho : ∀ i l, ((ho i).idx l).Perm l) : ∀ {n : Nat}, n ≤ 781000 →
    ∃ s, rangeFill ho n = .ok s ∧ Holds s n (n + 10) fun i => if i < n then some (i : Int) else none := by
  intro n
  induction n with
  | zero => exact fun _ => ⟨_, rfl, by simpa using Holds.new⟩
  | succ n ih =>
    intro hn
    obtain ⟨s, h1, h2⟩ := ih (by omega)
    obtain ⟨s', h3, h4⟩ := h2.insert (by omega) (a := n) (b := n + 1) (by omega) hn (.inl (by omega)) (hho n) n
    refine ⟨s', ?_, h4.inv, ?_, ?_, fun i => ?_⟩
    · rw [rangeFill, List.range_succ, List.foldlM_append]
      rw [rangeFill] at h1
      rw [h1]
      simp only [List.foldlM_cons, List.foldlM_nil, bind_ok, h3, pure_ok]
    · have := h4.lo; omega
    · have := h4.hi; omega
    · rw [h4.get]
      by_cases h : i = n
      · subst h; simp
      · by_cases h' : i < n
        · rw [if_neg (by omega), if_pos h', if_pos (by omega)]
        · rw [if_neg (by omega), if_neg h', if_neg (by omega)]

theorem Holds.assert {s : RangeMap} {n N : Nat} {f : Nat → Option Int} (h : Holds s n N f) {i : Nat} {x : Option Int} (hx : f i = x) :
    rangeAssert s i x = .ok () := by
  rw [rangeAssert, RangeMap.get_spec (by decide) h.inv, bind_ok, h.get, hx]
  simp [assertM]

/-- `write_buffer_get_item` passes. -/
theorem C59_get {ho : Nat → HashOrd RElem} (hho : ∀ i l, ((ho i).idx l).Perm l) {n : Nat} (hn : n ≤ 781000) (v : Int) : rangeGetTest ho n v = .ok () := by
  obtain ⟨s, h1, h2⟩ := rangeFill_spec hho hn
  rw [rangeGetTest, h1, bind_ok, checkAll_ok fun i hi => h2.assert (by rw [if_pos (List.mem_range.mp hi)]), bind_ok, h2.assert (by rw [if_neg (by omega)]), bind_ok]
  by_cases h0 : 0 < n
  · obtain ⟨s', h3, h4⟩ := h2.insert (by omega) (Nat.zero_le n) hn (.inl h0) (hho n) v
    rw [h3, bind_ok, h4.assert (x := none) (by simp), bind_ok]
    exact checkAll_ok fun i hi => h4.assert (by rw [if_pos ⟨Nat.zero_le i, List.mem_range.mp hi⟩])
  · obtain rfl : n = 0 := by omega
    cases h1
    obtain ⟨s', h3, -, -, -, h4, -⟩ := C47_insert_nothing (ho 0) v
    rw [h3, bind_ok, rangeAssert, h4]
    rfl

/-- a range that is yielded begins with its own value -/
theorem Tiles.start : ∀ {out : List ((Nat × Nat) × Int)} {i : Nat}, Tiles i out → ∀ x ∈ out, i ≤ x.1.1 ∧ x.1.1 < x.1.2 := by
  intro out
  induction out with
  | nil => exact fun _ x hx => absurd hx List.not_mem_nil
  | cons y out ih =>
    intro i h x hx
    obtain ⟨h1, h2, h3⟩ := h
    rcases List.mem_cons.mp hx with rfl | hx
    · omega
    · have := ih h3 x hx; omega

theorem Holds.iter {s : RangeMap} {n N : Nat} {f : Nat → Option Int} (h : Holds s n N f) (hN : N ≤ 781010) (hf : ∀ i j, i < j → f i = none → f j = none) :
    ∃ out, RangeMap.iter s = .ok out ∧ ∀ x ∈ out, f x.1.1 = some x.2 := by
  obtain ⟨k, hk, hi⟩ := h.low hN
  obtain ⟨out, o1, o2, o3⟩ := C48_iter_partial (by decide) hi (by omega) fun i j hij hn => by
    rw [RangeMap.get_spec (by decide) h.inv, h.get] at *
    rw [hf i j hij (Except.ok.inj hn)]
  refine ⟨out, o1, fun x hx => ?_⟩
  have := (o3 x.1.1 x.2).mp ⟨x, hx, Nat.le_refl _, (o2.start x hx).2, rfl⟩
  rw [RangeMap.get_spec (by decide) h.inv, h.get] at this
  exact Except.ok.inj this

theorem assertM_ok {b : Bool} (h : b = true) : assertM b = .ok () := by rw [h]; rfl

/-- `write_buffer_iter` passes. -/
theorem C59_iter {ho : Nat → HashOrd RElem} (hho : ∀ i l, ((ho i).idx l).Perm l) {n b : Nat} (hn : n ≤ 781000) (hb : b ≤ n) (v : Int) :
    rangeIterTest ho n b v = .ok () := by
  obtain ⟨s, h1, h2⟩ := rangeFill_spec hho hn
  rw [rangeIterTest, h1, bind_ok]
  by_cases h0 : 0 < n
  · obtain ⟨s', h3, h4⟩ := h2.insert (by omega) hb hn (.inl h0) (hho n) v
    obtain ⟨out, o1, o2⟩ := h4.iter (by omega) fun i j hij hi => by
      have hi : n ≤ i := by
        apply Decidable.byContradiction
        intro hc
        split at hi
        · cases hi
        · rw [if_pos (by omega)] at hi; cases hi
      rw [if_neg (by omega), if_neg (by omega)]
    rw [h3, bind_ok, o1, bind_ok]
    refine checkAll_ok fun x hx => assertM_ok (decide_eq_true ?_)
    have := o2 x hx
    split at this
    · rw [if_neg (by omega)]; exact (Option.some.inj this).symm
    · split at this
      · rw [if_pos (by omega)]; exact (Option.some.inj this).symm
      · cases this
  · obtain rfl : n = 0 := by omega
    obtain rfl : b = 0 := by omega
    cases h1
    obtain ⟨s', h3, -, -, h4, -⟩ := C47_insert_nothing (ho 0) v
    rw [h3, bind_ok, h4, bind_ok]
    exact checkAll_ok fun x hx => assertM_ok (by rw [List.mem_singleton.mp hx]; simp)

/-- `range_plus` passes, provided that the range of `plus` covers the end. -/
theorem C59_plus {ho : Nat → HashOrd RElem} (hho : ∀ i l, ((ho i).idx l).Perm l) {n b c : Nat} (hc : c ≤ 781000) (hn : n ≤ c) (hb : b ≤ c) (d : Int) :
    rangePlusTest ho n b c d = .ok () := by
  obtain ⟨s, h1, h2⟩ := rangeFill_spec hho (n := n) (by omega)
  obtain ⟨s', h3, h4⟩ := h2.plus (by omega) hb hc (hho n) d
  obtain ⟨out, o1, o2⟩ := h4.iter (by omega) fun i j hij hi => by
    have hi : n ≤ i := by
      apply Decidable.byContradiction
      intro hc
      rw [if_pos (show i < n by omega)] at hi
      split at hi <;> cases hi
    rw [if_neg (show ¬ j < n by omega)]
    split <;> rfl
  rw [rangePlusTest, h1, bind_ok, h3, bind_ok, o1, bind_ok]
  refine checkAll_ok fun x hx => ?_
  have hx := o2 x hx
  have hlt : x.1.1 < n := by
    apply Decidable.byContradiction
    intro hc
    rw [if_neg hc] at hx
    split at hx <;> cases hx
  rw [if_pos hlt] at hx
  rw [assertM_ok (decide_eq_true hlt), bind_ok]
  refine assertM_ok (decide_eq_true ?_)
  split at hx
  · rw [if_neg (by omega)]; exact (Option.some.inj hx).symm
  · rw [if_pos (by omega)]; exact (Option.some.inj hx).symm

theorem filterMap_id_some {l : List (Option Int)} : (∀ i : Nat, i < l.length → (l[i]?.join).isSome) → ∀ k : Nat, (l.filterMap id)[k]? = l[k]?.join := by
  intro h
  refine RangeMap.filterMap_prefix fun i j hij hn => ?_
  have hi : l.length ≤ i := by
    apply Decidable.byContradiction
    intro hc
    have := h i (by omega)
    rw [hn] at this
    cases this
  rw [List.getElem?_eq_none (by omega)]
  rfl

/-- `write_buffer_drain` passes. -/
theorem C59_drain {ho : Nat → HashOrd RElem} (hho : ∀ i l, ((ho i).idx l).Perm l) {n a b c : Nat} (hn : n ≤ 781000) (hc : c ≤ 781000) (ha : a < n) (hbc : b ≤ c) (v : Int) :
    rangeDrainTest ho n a b c v = .ok () := by
  obtain ⟨s, h1, h2⟩ := rangeFill_spec hho hn
  obtain ⟨s', h3, h4⟩ := h2.insert (by omega) hbc hc (.inr (by omega)) (hho n) v
  obtain ⟨k, hk, hi⟩ := h4.low (by omega)
  have hlo := h4.lo
  have hlen := RangeMap.len_spec (m := 5) (by decide) h4.inv
  obtain ⟨out, s2, -, d1, -, -, d2, -⟩ := C48_drain (by decide) hi (start := a) (stop := n) (by omega) (by omega) (by omega) (.inl hk)
  rw [rangeDrainTest, h1, bind_ok, h3, bind_ok, d1, bind_ok]
  have hcell : ∀ i, ((s'.cells.drop a).take (n - a))[i]?.join = if i < n - a then s'.cells[a + i]?.join else none := by
    intro i
    rw [List.getElem?_take, List.getElem?_drop]
    split <;> rfl
  have hl : ((s'.cells.drop a).take (n - a)).length = n - a := by rw [List.length_take, List.length_drop]; omega
  refine checkAll_ok fun x hx => assertM_ok (decide_eq_true ?_)
  obtain ⟨t1, t2⟩ := d2.tiles.start x hx
  have hv := (d2.vals (x.1.1 - a) x.2).mp ⟨x, hx, by omega, by omega, rfl⟩
  rw [filterMap_id_some (fun i hi => by
    rw [hl] at hi
    rw [hcell, if_pos hi, h4.get]
    split
    · rfl
    · rw [if_pos (by omega)]; rfl), hcell] at hv
  split at hv
  · rw [h4.get, show a + (x.1.1 - a) = x.1.1 by omega] at hv
    split at hv
    · rw [if_neg (by omega)]; exact (Option.some.inj hv).symm
    · rw [if_pos (by omega)] at hv
      rw [if_pos (by omega)]; exact (Option.some.inj hv).symm
  · cases hv

/-- the tests as they are written, also when every dirty map is visited backwards -/
example : rangeGetTest (fun _ => ⟨List.reverse, id, id⟩) 100 100 = .ok () := C59_get (fun _ l => List.reverse_perm l) (by decide) 100
example : rangeIterTest (fun _ => ⟨List.reverse, id, id⟩) 100 50 100 = .ok () := C59_iter (fun _ l => List.reverse_perm l) (by decide) (by decide) 100
example : rangeDrainTest (fun _ => ⟨List.reverse, id, id⟩) 100 25 50 80 100 = .ok () :=
  C59_drain (fun _ l => List.reverse_perm l) (by decide) (by decide) (by decide) (by decide) 100
example : rangePlusTest (fun _ => ⟨List.reverse, id, id⟩) 100 50 110 100 = .ok () := C59_plus (fun _ l => List.reverse_perm l) (by decide) (by decide) (by decide) 100

end GB

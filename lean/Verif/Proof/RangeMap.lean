import Verif.Proof.RangeLaw
import Verif.Spec.Cells
import Verif.Props.C01
import Verif.Props.C07
import Verif.Props.C21
import Verif.Props.C44

/-!
# The range map against its array
-/

namespace GB
open Tree

/-- the array of a map -/
def RangeMap.cells (s : RangeMap) : List (Option Int) := content RElem.cells (abs s).es

namespace RangeMap
variable {m : Fill} {s : RangeMap}

theorem len_spec (hm : 1 ≤ m.lo) (hi : Inv rangeLaw m s) : len s = s.cells.length := by
  have hok := hi.okE
  unfold cells len
  by_cases hne : (abs s).es = []
  · rw [hne]
    obtain ⟨h, hi⟩ := hi
    obtain ⟨lvl, g⟩ := hi.ex
    exact g.rok.2 ((empty_iff g.wf (hi.ne hm)).mp ((abs_nil hi).mp hne))
  · rw [C07_root_cache hm hi hne, content_length rangeContent (es := (abs s).es) hok]
    rfl

/-- there are no more elements than positions -/
theorem entries_le (hi : Inv rangeLaw m s) : (abs s).es.length ≤ s.cells.length := by
  have hok : ∀ x ∈ (abs s).es, 0 < x.2.len := hi.okE
  unfold cells
  revert hok
  generalize (abs s).es = es
  intro hok
  induction es with
  | nil => simp
  | cons x es ih =>
    have h1 := hok x (by simp)
    have h2 := ih (fun y hy => hok y (by simp [hy]))
    simp only [content_cons, List.length_append, List.length_cons, RElem.cells, List.length_replicate]
    omega

theorem reserve_spec (hm : 1 ≤ m.lo ∧ m.lo + m.d ≤ 6) (hi : Inv rangeLaw m s) (stop : Nat) :
    ∃ s', reserve s stop = .ok s' ∧ Inv rangeLaw m s' ∧ s'.cells = cellsReserve s.cells stop ∧ (abs s').es.length ≤ (abs s).es.length + 1 := by
  unfold reserve cellsReserve
  rw [len_spec hm.1 hi]
  by_cases h : s.cells.length < stop
  · rw [if_pos h, if_pos h]
    have hok : rangeLaw.okE ⟨none, stop - s.cells.length + 10⟩ := Nat.succ_pos _
    obtain ⟨c, s', U, x, e1, i1, c1, -⟩ := C01_push_content rangeContent hm hi hok
    obtain ⟨c2, s2, e2, -, sp⟩ := C01_push hm hi hok
    rw [e1] at e2
    cases e2
    refine ⟨s', by rw [e1]; rfl, i1, c1, ?_⟩
    have key : ∀ {c c' : Cursor} {t t' : Seq RElem}, (Except.ok (c, t) : M (Cursor × Seq RElem)) = .ok (c', t') → t'.es.length = t.es.length :=
      fun q => by cases q; rfl
    unfold specPush at sp
    split at sp
    · split at sp
      · obtain ⟨e', -, q⟩ := bind_inv sp
        rw [key q]
        simp
      · rw [key sp]
        simp
    · rw [key sp]
      simp
  · rw [if_neg h, if_neg h]
    exact ⟨s, rfl, hi, rfl, by omega⟩

theorem closure_ok {f : Option Int → Option Int} :
    ClosureOK rangeLaw (fun c d c' => (c' : Int) = c + d) (fun (_ : Unit) (e : RElem) => (.ok ((), ⟨f e.value, e.len⟩, none) : M (Unit × RElem × Option Int))) :=
  fun _ e he => ⟨_, _, _, rfl, he, by simp, fun _ => rfl⟩

theorem runOn_map {f : Option Int → Option Int} : ∀ Y : List (Nat × RElem),
    runOn (fun (_ : Unit) (e : RElem) => (.ok ((), ⟨f e.value, e.len⟩, none) : M (Unit × RElem × Option Int))) () Y =
      .ok ((), Y.map fun x => (x.1, ⟨f x.2.value, x.2.len⟩)) := by
  intro Y
  induction Y with
  | nil => rfl
  | cons x Y ih =>
    simp only [runOn, bind_ok, ih, List.map_cons, pure_ok]

theorem content_map {f : Option Int → Option Int} : ∀ Y : List (Nat × RElem),
    content RElem.cells (Y.map fun x => (x.1, (⟨f x.2.value, x.2.len⟩ : RElem))) = (content RElem.cells Y).map f := by
  intro Y
  induction Y with
  | nil => rfl
  | cons x Y ih =>
    simp only [List.map_cons, content_cons, ih, List.map_append, RElem.cells, List.map_replicate]

theorem specCut_count {t : Seq RElem} {c : Cursor} {L R : List (Nat × RElem)} {n : Nat} (h : specCut rangeTrait t c = .ok (L, R, n)) :
    L.length + R.length ≤ t.es.length + 1 := by
  unfold specCut at h
  split at h
  · cases h
  · next U e V hl =>
    have hes := congrArg List.length (locate_some hl)
    simp only [List.length_append, List.length_cons] at hes
    split at h
    · cases h
    split at h
    · cases h; simp only [List.length_cons]; omega
    split at h
    · cases h; simp only [List.length_append, List.length_cons, List.length_nil]; omega
    · obtain ⟨⟨a, b⟩, -, q⟩ := bind_inv h
      cases q
      simp only [List.length_append, List.length_cons, List.length_nil]; omega

/-- an update of a range of positions by a function -/
theorem update_map (hm : 1 ≤ m.lo ∧ m.lo + m.d ≤ 5) {h : Nat} (hi : InvH rangeLaw m h s) {ho : HashOrd RElem} (hho : ∀ l, (ho.idx l).Perm l)
    {i j : Nat} (hij : i ≤ j) (hj : j ≤ s.cells.length) (hne : (abs s).es ≠ []) {f : Option Int → Option Int}
    (hh : h ≤ 8 ∨ ∀ a b, range rangeQuery s i j = .ok (some (a, b)) → update rangeTrait ho (fun (_ : Unit) (e : RElem) => (.ok ((), ⟨f e.value, e.len⟩, none) : M (Unit × RElem × Option Int))) () s a.cursor b.cursor ≠ .error .panic) :
    ∃ a b sp, ∃ s' : RangeMap, range rangeQuery s i j = .ok (some (a, b)) ∧
      update rangeTrait ho (fun (_ : Unit) (e : RElem) => (.ok ((), ⟨f e.value, e.len⟩, none) : M (Unit × RElem × Option Int))) () s a.cursor b.cursor =
        .ok ((), sp, s') ∧ Inv rangeLaw m s' ∧ s'.cells = cellsMap f s.cells i j ∧ (abs s').es.length ≤ (abs s).es.length + 2 := by
  have hlen : s.cells.length = unitLen rangeTrait (abs s).es := content_length rangeContent (Inv.okE ⟨h, hi⟩)
  obtain ⟨U, l, e, V, o, a1, a2, a3, a4, a5, a6⟩ := C09_query_len rangeLenLaw hm.1 ⟨h, hi⟩ hne i
  obtain ⟨U', l', e', V', o', b1, b2, b3, b4, b5, b6⟩ := C09_query_len rangeLenLaw hm.1 ⟨h, hi⟩ hne j
  have hoa : o ≤ rangeTrait.rleLen e := by
    rcases Nat.lt_or_ge i (unitLen rangeTrait (abs s).es) with h | h
    · exact Nat.le_of_lt (a4 h)
    · exact Nat.le_of_eq (a6 (by omega))
  have hob : o' ≤ rangeTrait.rleLen e' := by
    rcases Nat.lt_or_ge j (unitLen rangeTrait (abs s).es) with h | h
    · exact Nat.le_of_lt (b4 h)
    · exact Nat.le_of_eq (b6 (by omega))
  have hrng := C44_range hm.1 ⟨h, hi⟩ hne _ a2 b2
  have hh := hh.imp id fun hh => hh _ _ hrng
  obtain ⟨Y, st', Y', s', h', u1, i1, -, c1, okY, r1, c2, -⟩ := C21_update_content rangeDiffs rangeContent hm (Or.inr rangeLawE) hi
    (Inv.okE ⟨h, hi⟩) hho (closure_ok (f := f)) () (a := ⟨l, o⟩) (b := ⟨l', o'⟩) a1 hoa a3 b1 hob b3 hij hh
  have hcount : (abs s').es.length ≤ (abs s).es.length + 2 := by
    obtain ⟨⟨lvl, g⟩, sz⟩ := hi
    obtain ⟨ua, va, o1, rfl, -, hea⟩ := entries_split g.wf a1
    obtain ⟨ub, vb, o2, rfl, -, heb⟩ := entries_split g.wf b1
    obtain ⟨st2, s2, lvl2, h2, w1, -, -, -, -, L', R', X, n, Z, Z', k1, k2, k3, k4⟩ := update_spec hm.1 hm.2 (Or.inr rangeLawE) rangeDiffs hho
      (closure_ok (f := f)) () g sz rangeContent.splitLen (a := ⟨l, o⟩) (b := ⟨l', o'⟩)
      (fun l x hx => g.okE l x hx) o1 hea hoa o2 heb hob (Nat.le_trans (Nat.le_of_eq a3) (Nat.le_trans hij (Nat.le_of_eq b3.symm))) hh
    rw [u1] at w1
    have hs : s' = s2 := congrArg (fun x => x.2.2) (Except.ok.inj w1)
    subst hs
    have q1 := specCut_count k1
    have q2 := specCut_count k2
    simp only [List.length_append] at q2
    rw [runOn_map] at k3
    cases k3
    have q3 := List.length_filter_le (fun x => !rangeTrait.canRemove x.2) (Z.map fun x => (x.1, (⟨f x.2.value, x.2.len⟩ : RElem)))
    rw [List.length_map] at q3
    show (entries s').length ≤ _
    rw [k4]
    simp only [List.length_append]
    omega
  refine ⟨_, _, _, s', hrng, u1, ⟨h', i1⟩, ?_, hcount⟩
  rw [runOn_map] at r1
  cases r1
  show content RElem.cells (abs s').es = _
  rw [c2]
  have hfil : (Y.map fun x => (x.1, (⟨f x.2.value, x.2.len⟩ : RElem))).filter (fun x => !rangeTrait.canRemove x.2) =
      Y.map fun x => (x.1, (⟨f x.2.value, x.2.len⟩ : RElem)) := by
    rw [List.filter_eq_self]
    intro x hx
    obtain ⟨y, hy, rfl⟩ := List.mem_map.mp hx
    have : 0 < y.2.len := (okY y hy).1
    simp only [rangeTrait, Bool.not_eq_true', decide_eq_false_iff_not]
    omega
  rw [hfil, content_map, c1]
  rfl

theorem cellsReserve_length (t : List (Option Int)) (b : Nat) : (cellsReserve t b).length = if t.length < b then b + 10 else t.length := by
  unfold cellsReserve
  split
  · simp only [List.length_append, List.length_replicate]; omega
  · rfl

theorem cellsReserve_le (t : List (Option Int)) (b : Nat) : b ≤ (cellsReserve t b).length := by
  rw [cellsReserve_length]
  split <;> omega

theorem cellsReserve_get (t : List (Option Int)) (b i : Nat) : ((cellsReserve t b)[i]?).join = (t[i]?).join := by
  unfold cellsReserve
  split
  · rw [List.getElem?_append]
    split
    · rfl
    · next h =>
      rw [List.getElem?_eq_none (l := t) (by omega), List.getElem?_replicate]
      split <;> rfl
  · rfl

theorem cellsMap_length (f : Option Int → Option Int) (t : List (Option Int)) {a b : Nat} (hab : a ≤ b) (hb : b ≤ t.length) :
    (cellsMap f t a b).length = t.length := by
  simp only [cellsMap, List.length_append, List.length_map, List.length_take, List.length_drop]
  omega

theorem cellsMap_getElem (f : Option Int → Option Int) (t : List (Option Int)) {a b : Nat} (hab : a ≤ b) (hb : b ≤ t.length) (i : Nat) :
    (cellsMap f t a b)[i]? = if a ≤ i ∧ i < b then t[i]?.map f else t[i]? := by
  unfold cellsMap
  rw [List.append_assoc, List.getElem?_append, List.getElem?_append]
  simp only [List.length_take, List.length_map, List.length_drop, List.getElem?_take, List.getElem?_map, List.getElem?_drop]
  by_cases h1 : i < a
  · rw [if_pos (by omega), if_pos h1, if_neg (by omega)]
  · rw [if_neg (by omega)]
    by_cases h2 : i < b
    · rw [if_pos (by omega), if_pos (by omega), if_pos (by omega)]
      congr 2
      omega
    · rw [if_neg (by omega), if_neg (by omega)]
      congr 1
      omega

end RangeMap

theorem RangeOp.valid.on {o : RangeOp} (h : o.valid) (t : List (Option Int)) : o.validOn t := by
  cases o with
  | insert a b v => exact ⟨h.1, .inl h.2⟩
  | plus a b d => exact h

/-- one operation -/
theorem RangeOp.run_spec {m : Fill} {s : RangeMap} {o : RangeOp} (hm : 1 ≤ m.lo ∧ m.lo + m.d ≤ 5) (hi : Inv rangeLaw m s)
    {ho : HashOrd RElem} (hh : (∀ s' : RangeMap, Inv rangeLaw m s' → (abs s').es.length ≤ (abs s).es.length + 1 →
      s'.cells = cellsReserve s.cells o.stop → ∃ h, h ≤ 8 ∧ InvH rangeLaw m h s') ∨ o.run ho s ≠ .error .panic)
    (hho : ∀ l, (ho.idx l).Perm l) (hv : o.validOn s.cells) :
    ∃ s' : RangeMap, o.run ho s = .ok s' ∧ Inv rangeLaw m s' ∧ s'.cells = o.apply s.cells ∧ (abs s').es.length ≤ (abs s).es.length + 3 := by
  obtain ⟨s1, e1, i1, c1, n1⟩ := RangeMap.reserve_spec (by omega) hi o.stop
  obtain ⟨h, h7, hi1⟩ : ∃ h, (h ≤ 8 ∨ o.run ho s ≠ .error .panic) ∧ InvH rangeLaw m h s1 := by
    rcases hh with hh | hh
    · obtain ⟨h, h7, hi1⟩ := hh s1 i1 n1 c1
      exact ⟨h, .inl h7, hi1⟩
    · obtain ⟨h, hi1⟩ := i1
      exact ⟨h, .inr hh, hi1⟩
  have hlen : o.stop ≤ s1.cells.length := by
    rw [c1, RangeMap.cellsReserve_length]
    split <;> omega
  have hlen' : s.cells.length ≤ s1.cells.length := by
    rw [c1, RangeMap.cellsReserve_length]
    split <;> omega
  have hemp : (abs s1).es = [] → s1.cells = [] := by
    intro h
    rw [RangeMap.cells, h]; rfl
  cases o with
  | insert a b v =>
    have hne : (abs s1).es ≠ [] := by
      intro h
      rw [hemp h] at hlen hlen'
      simp only [List.length_nil, Nat.le_zero_eq, List.length_eq_zero_iff, RangeOp.stop] at hlen hlen'
      rcases hv.2 with h | h
      · omega
      · exact h hlen'
    obtain ⟨qa, qb, sp, s', r1, u1, i2, c2, n2⟩ := RangeMap.update_map hm hi1 hho hv.1 hlen hne (f := fun _ => some v) (h7.imp id
      fun h7 qa qb r1 hc => h7 (by
        have r1 : range rangeQuery s1 a b = _ := r1
        have hc : update rangeTrait ho (RangeMap.setValue v) () s1 qa.cursor qb.cursor = _ := hc
        simp only [RangeOp.run, RangeMap.insert, show RangeMap.reserve s b = .ok s1 from e1, bind_ok, r1, hc]
        rfl))
    refine ⟨s', ?_, i2, by rw [c2, c1]; rfl, by omega⟩
    have e1 : RangeMap.reserve s b = .ok s1 := e1
    have r1 : range rangeQuery s1 a b = _ := r1
    have u1 : update rangeTrait ho (RangeMap.setValue v) () s1 qa.cursor qb.cursor = _ := u1
    simp only [RangeOp.run, RangeMap.insert, e1, bind_ok, r1, u1]
    rfl
  | plus a b d =>
    have hv : a ≤ b := hv
    have e1 : RangeMap.reserve s b = .ok s1 := e1
    by_cases hne : (abs s1).es = []
    · have hcs := hemp hne
      refine ⟨s1, ?_, i1, ?_, by omega⟩
      · simp only [RangeOp.run, RangeMap.plus, e1, bind_ok, ((C44_empty hm.1 i1).2 hne rangeQuery a b).2]
        rfl
      · rw [hcs] at c1 ⊢
        rw [RangeOp.apply, ← show _ = cellsReserve s.cells b from c1]
        simp [cellsMap]
    · obtain ⟨qa, qb, sp, s', r1, u1, i2, c2, n2⟩ := RangeMap.update_map hm hi1 hho hv hlen hne (f := Option.map (· + d)) (h7.imp id
        fun h7 qa qb r1 hc => h7 (by
          have r1 : range rangeQuery s1 a b = _ := r1
          have hc : update rangeTrait ho (RangeMap.addValue d) () s1 qa.cursor qb.cursor = _ := hc
          simp only [RangeOp.run, RangeMap.plus, e1, bind_ok, r1, hc]
          rfl))
      refine ⟨s', ?_, i2, by rw [c2, c1]; rfl, by omega⟩
      have r1 : range rangeQuery s1 a b = _ := r1
      have u1 : update rangeTrait ho (RangeMap.addValue d) () s1 qa.cursor qb.cursor = _ := u1
      simp only [RangeOp.run, RangeMap.plus, e1, bind_ok, r1, u1]
      rfl

theorem RangeOp.apply_length {o : RangeOp} (hv : o.valid) (t : List (Option Int)) : (o.apply t).length = (cellsReserve t o.stop).length := by
  cases o with
  | insert a b v => exact RangeMap.cellsMap_length _ _ hv.1 (RangeMap.cellsReserve_le t b)
  | plus a b d => exact RangeMap.cellsMap_length _ _ hv (RangeMap.cellsReserve_le t b)

/-- histories, for a bound `B` on the size that every operation passes on -/
theorem rangeRun_spec {m : Fill} (hm : 1 ≤ m.lo ∧ m.lo + m.d ≤ 5) {B : RangeMap → List (HashOrd RElem × RangeOp) → Prop}
    (hstep : ∀ (s s' : RangeMap) o os, Inv rangeLaw m s → Inv rangeLaw m s' → B s (o :: os) → (abs s').es.length ≤ (abs s).es.length + 3 →
      s'.cells.length = (cellsReserve s.cells o.2.stop).length → B s' os)
    (hheight : ∀ (s : RangeMap) o os, B s (o :: os) → ∀ s' : RangeMap, Inv rangeLaw m s' → (abs s').es.length ≤ (abs s).es.length + 1 →
      s'.cells = cellsReserve s.cells o.2.stop → ∃ h, h ≤ 8 ∧ InvH rangeLaw m h s') :
    ∀ (os : List (HashOrd RElem × RangeOp)) {s : RangeMap}, Inv rangeLaw m s → (∀ x ∈ os, (∀ l, (x.1.idx l).Perm l) ∧ x.2.valid) → B s os →
      ∃ s' : RangeMap, rangeRun s os = .ok s' ∧ Inv rangeLaw m s' ∧ s'.cells = cellsRun s.cells os := by
  intro os
  induction os with
  | nil => intro s hi _ _; exact ⟨s, rfl, hi, rfl⟩
  | cons x os ih =>
    intro s hi hos hb
    have hx := hos x (by simp)
    obtain ⟨s1, e1, i1, c1, n1⟩ := RangeOp.run_spec hm hi (.inl (hheight s x os hb)) hx.1 (hx.2.on _)
    obtain ⟨s2, e2, i2, c2⟩ := ih i1 (fun y hy => hos y (by simp [hy]))
      (hstep s s1 x os hi i1 hb n1 (by rw [c1, RangeOp.apply_length hx.2]))
    obtain ⟨ho, o⟩ := x
    exact ⟨s2, by simp only [rangeRun, e1, bind_ok, e2], i2, by rw [c2, c1]; rfl⟩

/-- histories of any length: unless an operation panics -/
theorem rangeRun_any {m : Fill} (hm : 1 ≤ m.lo ∧ m.lo + m.d ≤ 5) :
    ∀ (os : List (HashOrd RElem × RangeOp)) {s : RangeMap}, Inv rangeLaw m s → (∀ x ∈ os, (∀ l, (x.1.idx l).Perm l) ∧ x.2.valid) →
      rangeRun s os ≠ .error .panic → ∃ s' : RangeMap, rangeRun s os = .ok s' ∧ Inv rangeLaw m s' ∧ s'.cells = cellsRun s.cells os := by
  intro os
  induction os with
  | nil => intro s hi _ _; exact ⟨s, rfl, hi, rfl⟩
  | cons x os ih =>
    intro s hi hos hn
    have hx := hos x (by simp)
    obtain ⟨ho, o⟩ := x
    have hn' : o.run ho s ≠ .error .panic := fun h => hn (by simp only [rangeRun, h]; rfl)
    obtain ⟨s1, e1, i1, c1, n1⟩ := RangeOp.run_spec hm hi (.inr hn') hx.1 (hx.2.on _)
    have hr : rangeRun s ((ho, o) :: os) = rangeRun s1 os := by simp only [rangeRun, e1, bind_ok]
    rw [hr] at hn ⊢
    obtain ⟨s2, e2, i2, c2⟩ := ih i1 (fun y hy => hos y (by simp [hy])) hn
    exact ⟨s2, e2, i2, by rw [c2, c1]; rfl⟩

/-- lookup -/
theorem RangeMap.get_spec {m : Fill} {s : RangeMap} (hm : 1 ≤ m.lo) (hi : Inv rangeLaw m s) (i : Nat) : s.get i = .ok (s.cells[i]?.join) := by
  unfold RangeMap.get
  by_cases hne : (abs s).es = []
  · have h0 : s.cells = [] := by rw [RangeMap.cells, hne]; rfl
    have hq := ((C44_empty hm hi).2 hne rangeQuery i i).1
    simp only [hq, bind_ok, h0]
    rfl
  · have hlen : s.cells.length = unitLen rangeTrait (abs s).es := content_length rangeContent hi.okE
    obtain ⟨U, l, e, V, o, a1, a2, a3, a4, a5, a6⟩ := C09_query_len rangeLenLaw hm hi hne i
    rw [show query rangeQuery s i = _ from a2]
    simp only [bind_ok]
    by_cases hlt : i < unitLen rangeTrait (abs s).es
    · have ho : o < e.len := a4 hlt
      simp only [hlt, decide_true, if_true, pure_ok]
      have hel : elm s l = some e := by
        obtain ⟨h, ⟨lvl, g⟩, -⟩ := hi
        exact (entries_mem g.wf).mp (show (l, e) ∈ entries s by rw [show entries s = _ from a1]; simp)
      have hge : getElem s l = some e := hel
      have hU : (content RElem.cells U).length = unitLen rangeTrait U := content_length rangeContent (fun x hx => hi.okE x (by
        rw [show entries s = _ from a1]; simp [hx]))
      have hcell : s.cells[i]? = some e.value := by
        rw [RangeMap.cells, a1, content_append, content_cons, List.getElem?_append_right (by omega),
          List.getElem?_append_left (by simp only [RElem.cells, List.length_replicate]; omega)]
        simp only [RElem.cells, List.getElem?_replicate]
        rw [if_pos (by omega)]
      rw [hge, hcell]
      rfl
    · simp only [hlt, decide_false, Bool.false_eq_true, if_false, pure_ok]
      rw [List.getElem?_eq_none (by omega)]
      rfl

theorem RangeMap.ranges_ge : ∀ (es : List RElem) (i : Nat), ∀ x ∈ RangeMap.ranges i es, i ≤ x.1.1 := by
  intro es
  induction es with
  | nil => intro i x hx; simp [RangeMap.ranges] at hx
  | cons e es ih =>
    intro i x hx
    cases hv : e.value with
    | none => exact ih i x (by simpa [RangeMap.ranges, hv] using hx)
    | some w =>
      simp only [RangeMap.ranges, hv, List.mem_cons] at hx
      rcases hx with rfl | hx
      · exact Nat.le_refl _
      · exact Nat.le_trans (Nat.le_add_right _ _) (ih _ x hx)

/-- what `ranges` yields: the elements with a value, packed together from `i` on -/
theorem RangeMap.ranges_spec : ∀ (es : List RElem) (i k : Nat) (v : Int),
    (∃ x ∈ RangeMap.ranges i es, x.1.1 ≤ i + k ∧ i + k < x.1.2 ∧ x.2 = v) ↔ ((es.flatMap RElem.cells).filterMap id)[k]? = some v := by
  intro es
  induction es with
  | nil => intro i k v; simp [RangeMap.ranges]
  | cons e es ih =>
    intro i k v
    cases hv : e.value with
    | none =>
      simp only [RangeMap.ranges, hv, ih]
      rw [List.flatMap_cons, List.filterMap_append, show List.filterMap id e.cells = [] by
        rw [RElem.cells, hv]; simp [List.filterMap_replicate], List.nil_append]
    | some w =>
      have hcells : List.filterMap id e.cells = List.replicate e.len w := by
        rw [RElem.cells, hv]; simp [List.filterMap_replicate]
      rw [List.flatMap_cons, List.filterMap_append, hcells]
      simp only [RangeMap.ranges, hv, List.mem_cons, exists_eq_or_imp]
      by_cases hk : k < e.len
      · rw [List.getElem?_append_left (by simpa using hk), List.getElem?_replicate, if_pos hk]
        constructor
        · rintro (⟨-, -, rfl⟩ | ⟨x, hx, h1, h2, h3⟩)
          · rfl
          · exfalso
            have := RangeMap.ranges_ge es (i + e.len) x hx
            omega
        · intro h
          cases h
          exact Or.inl ⟨by omega, by omega, rfl⟩
      · rw [List.getElem?_append_right (by simpa using hk), List.length_replicate, ← ih (i + e.len) (k - e.len) v]
        rw [show i + e.len + (k - e.len) = i + k by omega]
        constructor
        · rintro (⟨h1, h2, -⟩ | h)
          · omega
          · exact h
        · exact Or.inr

theorem RangeMap.flatMap_cells (es : List (Nat × RElem)) : (es.map Prod.snd).flatMap RElem.cells = content RElem.cells es := by
  rw [content, List.flatMap_map]

/-- no gap before a value: closing up the gaps moves nothing -/
theorem RangeMap.filterMap_prefix : ∀ {t : List (Option Int)}, (∀ i j : Nat, i < j → t[i]?.join = none → t[j]?.join = none) →
    ∀ (i : Nat), (t.filterMap id)[i]? = t[i]?.join := by
  intro t
  induction t with
  | nil => intro _ i; rfl
  | cons c t ih =>
    intro h i
    have ht : ∀ i j : Nat, i < j → t[i]?.join = none → t[j]?.join = none := fun i j hij hn => by
      simpa using h (i + 1) (j + 1) (by omega) (by simpa using hn)
    cases c with
    | none =>
      have hall : ∀ j : Nat, t[j]?.join = none := fun j => by simpa using h 0 (j + 1) (by omega) rfl
      have : (none :: t).filterMap id = t.filterMap id := rfl
      rw [this, ih ht]
      cases i with
      | zero => rw [hall]; rfl
      | succ i => rw [hall]; simpa using (hall i).symm
    | some v =>
      cases i with
      | zero => rfl
      | succ i => simpa using ih ht i

/-- `drain` in terms of the drain of the tree -/
theorem RangeMap.drain_eq (s : RangeMap) (start stop : Nat) : RangeMap.drain s start stop =
    (do let (_, rest, s) ← drainByQuery rangeTrait rangeQuery s start stop 0
        pure (RangeMap.ranges start rest, s)) := by
  unfold RangeMap.drain drainByQuery
  cases query rangeQuery s start with
  | error e => rfl
  | ok a =>
    cases query rangeQuery s stop with
    | error e => rfl
    | ok b =>
      simp only [bind_ok]
      cases drainNew rangeTrait s a b with
      | error e => rfl
      | ok d =>
        simp only [bind_ok, drainTake, pure_ok]
        cases drainDrop rangeTrait d <;> rfl

end GB

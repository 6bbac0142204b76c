import Verif.Proof.TextOps
import Verif.Proof.RangeLaw
import Verif.Props.C08

/-!
# C67: a tree edited by position is a list

C35 for every trait whose elements are runs of units (`ContentLaw`) and whose caches hold lengths (`LenLaw`), with all operations that can
be addressed by position: `push`, `prepend`, `insert`, `drain_by_query`, `update` with a closure that acts on the units, and `clear`.
-/

namespace GB
variable {E C D X : Type}
open Tree

/-- the cursors that the length query gives for a range -/
theorem range_cursors {B : Trait E C D} {A : Law B} {getLen : C → Nat} (LL : LenLaw A getLen) {m : Fill} {s : Tree E C} (hm : 1 ≤ m.lo) (hi : Inv A m s)
    (hne : (abs s).es ≠ []) {i : Nat} (h : i ≤ unitLen B (abs s).es) :
    ∃ U l e V o, (abs s).es = U ++ (l, e) :: V ∧ query (lenQuery B getLen) s i = .ok (some ⟨⟨l, o⟩, decide (i < unitLen B (abs s).es)⟩) ∧
      unitLen B U + o = i ∧ o ≤ B.rleLen e := by
  obtain ⟨U, l, e, V, o, h1, h2, h3, h4, -, h6⟩ := C09_query_len LL hm hi hne i
  refine ⟨U, l, e, V, o, h1, h2, h3, ?_⟩
  rcases Nat.lt_or_ge i (unitLen B (abs s).es) with hc | hc
  · exact Nat.le_of_lt (h4 hc)
  · exact Nat.le_of_eq (h6 (by omega))

theorem pos_height {B : Trait E C D} {A : Law B} {cont : E → List X} (K : ContentLaw B A.okE cont) {s : Tree E C} (hi : Inv A ⟨1, 4⟩ s)
    (hpos : ∀ x ∈ (abs s).es, 0 < B.rleLen x.2) (hn : (content cont (abs s).es).length < 390626) : ∃ h, h ≤ 8 ∧ InvH A ⟨1, 4⟩ h s := by
  have okE : ∀ x ∈ (abs s).es, A.okE x.2 := hi.okE
  rw [content_length K okE] at hn
  exact hi.height (show 1 ≤ 1 by decide) (by decide) (show _ < fillRow ⟨1, 4⟩ 8 from
    Nat.lt_of_lt_of_le (Nat.lt_of_le_of_lt (length_le_units hpos) hn) (by decide))

/-- one operation -/
theorem textStep {B : Trait E C D} {A : Law B} (hE : LawE A) {R : C → D → C → Prop} (L : DiffLaw A R) {cont : E → List X} (K : ContentLaw B A.okE cont)
    {getLen : C → Nat} (LL : LenLaw A getLen) (hrem : ∀ e, A.okE e → B.canRemove e = true → B.rleLen e = 0) {ho : HashOrd E} (hho : ∀ l, (ho.idx l).Perm l)
    {s : Tree E C} (hi : Inv A ⟨1, 4⟩ s) (hpos : ∀ x ∈ (abs s).es, 0 < B.rleLen x.2) {o : TextOp E D X}
    (hv : o.valid B A.okE R cont (content cont (abs s).es))
    (hb : (content cont (abs s).es).length < 390626 ∨ o.run B getLen ho s ≠ .error .panic) :
    ∃ out rest s', o.run B getLen ho s = .ok (out, rest, s') ∧ Inv A ⟨1, 4⟩ s' ∧ (∀ x ∈ (abs s').es, 0 < B.rleLen x.2) ∧
      content cont (abs s').es = o.edit cont (content cont (abs s).es) ∧ o.yields cont (content cont (abs s).es) out rest := by
  have okE : ∀ x ∈ (abs s).es, A.okE x.2 := hi.okE
  have hlen := content_length K okE
  have hnil : content cont (abs s).es ≠ [] → (abs s).es ≠ [] := by
    intro h1 h2
    rw [h2] at h1
    exact h1 rfl
  cases o with
  | push e =>
    obtain ⟨c, s', h1, h2, h3⟩ := C01_push (B := B) (m := ⟨1, 4⟩) (by decide) hi hv.1
    exact ⟨[], [], s', by simp only [TextOp.run, h1, bind_ok, pure_ok], h2, specPush_pos K okE hpos hv.1 hv.2 h3, specPush_content K okE hv.1 h3, rfl, rfl⟩
  | prepend e =>
    obtain ⟨c, s', h1, h2, h3⟩ := C02_prepend_partial (B := B) (m := ⟨1, 4⟩) (by decide) hi (hnil hv.2.2) hv.1
    exact ⟨[], [], s', by simp only [TextOp.run, h1, bind_ok, pure_ok], h2, specPrepend_pos K okE hpos hv.1 hv.2.1 h3, specPrepend_content K okE hv.1 h3, rfl, rfl⟩
  | insert i e =>
    obtain ⟨he, he0, hle⟩ := hv
    by_cases hne : (abs s).es = []
    · obtain ⟨c, s', h1, h2, h3⟩ := C01_push (B := B) (m := ⟨1, 4⟩) (by decide) hi he
      have hq : query (lenQuery B getLen) s i = .ok none := by
        obtain ⟨h, hi⟩ := hi
        obtain ⟨lvl, g⟩ := hi.ex
        exact query_empty g.wf (hi.ne (Nat.le_refl 1)) ((abs_nil hi).mp hne) _ _
      refine ⟨[], [], s', by simp only [TextOp.run, GB.insert, hq, h1, bind_ok, pure_ok], h2, specPush_pos K okE hpos he he0 h3, ?_, rfl, rfl⟩
      rw [specPush_content K okE he h3, hne]
      rw [hne] at hle
      cases i with
      | zero => simp [TextOp.edit, splice]
      | succ i => exact absurd hle (by simp [content])
    · obtain ⟨U, l, x, V, o, h1, h2, h3, h4⟩ := range_cursors LL (Nat.le_refl 1) hi hne (i := i) (by omega)
      obtain ⟨c, sp, s', k1, k2, k3⟩ := C03_insert_by_path (B := B) (m := ⟨1, 4⟩) (cur := ⟨l, o⟩) (by decide) hi (by rw [h1]; simp) h4 (.inl (by decide)) he
      obtain ⟨c', sp', s'', k4, -, k6⟩ := C03_insert_content K (m := ⟨1, 4⟩) (cur := ⟨l, o⟩) (by decide) hi h1 h4 (.inl (by decide)) he
      rw [k1] at k4
      cases k4
      refine ⟨[], [], s', by simp only [TextOp.run, GB.insert, h2, k1, bind_ok, pure_ok], k2, specInsert_pos K okE hpos he he0 k3, ?_, rfl, rfl⟩
      rw [k6, h3]
      rfl
  | drain i j k =>
    obtain ⟨h1, h2, h3⟩ := hv
    obtain ⟨h, hh, hi1⟩ : ∃ h, (h ≤ 8 ∨ drainByQuery B (lenQuery B getLen) s i j k ≠ .error .panic) ∧ InvH A ⟨1, 4⟩ h s := by
      rcases hb with hb | hb
      · obtain ⟨h, h8, hi1⟩ := pos_height K hi hpos hb
        exact ⟨h, .inl h8, hi1⟩
      · obtain ⟨h, hi1⟩ := hi
        exact ⟨h, .inr hb, hi1⟩
    obtain ⟨Y, s', h', d1, d2, -, d4, d5, d6, -⟩ := C18_drain_by_query K LL (m := ⟨1, 4⟩) (by decide) hi1 hpos h1 (by omega) (by omega) k hh
    refine ⟨_, _, s', d1, d2.inv, d6, d5, ?_, by simp; omega, ?_⟩
    · rw [← d4, ← List.flatMap_append, ← List.map_append, List.take_append_drop, List.flatMap_map]
      rfl
    · intro hk
      rw [List.length_map, List.length_take] at hk
      rw [List.drop_of_length_le (by omega)]
      rfl
  | map i j f d g =>
    obtain ⟨h1, h2, h3, h4⟩ := hv
    obtain ⟨Ua, la, ea, Va, oa, a1, a2, a3, a4⟩ := range_cursors LL (Nat.le_refl 1) hi (hnil h3) (i := i) (by omega)
    obtain ⟨Ub, lb, eb, Vb, ob, b1, b2, b3, b4⟩ := range_cursors LL (Nat.le_refl 1) hi (hnil h3) (i := j) (by omega)
    obtain ⟨h, hh, hi1⟩ : ∃ h, (h ≤ 8 ∨ update B ho (fun (_ : Unit) e => .ok ((), f e, d e)) () s ⟨la, oa⟩ ⟨lb, ob⟩ ≠ .error .panic) ∧ InvH A ⟨1, 4⟩ h s := by
      rcases hb with hb | hb
      · obtain ⟨h, h8, hi1⟩ := pos_height K hi hpos hb
        exact ⟨h, .inl h8, hi1⟩
      · obtain ⟨h, hi1⟩ := hi
        refine ⟨h, .inr fun h => hb ?_, hi1⟩
        simp only [TextOp.run, updateAt, a2, b2, bind_ok, h]
        rfl
    obtain ⟨Y, st', Y', s', h', u1, u2, -, u3, u4, u5, u6, u7⟩ := C21_update_content L K (m := ⟨1, 4⟩) (by decide) (.inr hE) hi1 hpos hho
      (f := fun (_ : Unit) e => .ok ((), f e, d e)) (fun st e he => ⟨(), f e, d e, rfl, (h4 e he).1, (h4 e he).2.2⟩) ()
      (a := ⟨la, oa⟩) (b := ⟨lb, ob⟩) a1 a4 a3 b1 b4 b3 h1 hh
    obtain ⟨Z, r1, r2, r3⟩ := runOn_units (okE := A.okE) (cont := cont) (f := f) (d := d) (g := g) (fun e he => (h4 e he).2.1) (Y := Y) (fun x hx => (u4 x hx).1)
    rw [r1] at u5
    injection u5 with u5
    have hZ : Z = Y' := congrArg Prod.snd u5
    subst hZ
    have hY : ∀ x ∈ Z, 0 < B.rleLen x.2 := by
      intro x hx
      obtain ⟨e, e1, ⟨y, y1, rfl⟩, e3⟩ := r3 x hx
      have hc := congrArg List.length (h4 _ e1).2.1
      rw [K.len _ (h4 _ e1).1, List.length_map, K.len _ e1] at hc
      rw [e3, hc]
      exact (u4 y y1).2
    have hZ : Z.filter (fun x => !B.canRemove x.2) = Z := by
      rw [List.filter_eq_self]
      intro x hx
      obtain ⟨e, e1, -, e3⟩ := r3 x hx
      cases hc : B.canRemove x.2 with
      | false => rfl
      | true =>
        have h5 := hrem x.2 (by rw [e3]; exact (h4 e e1).1) hc
        have h6 := hY x hx
        omega
    refine ⟨[], [], s', ?_, u2.inv, u7 hY, ?_, rfl, rfl⟩
    · simp only [TextOp.run, updateAt, a2, b2, bind_ok, u1, pure_ok]
    · rw [u6, hZ, r2, u3]
      rfl
  | clear =>
    refine ⟨[], [], GB.clear B s, rfl, ⟨1, new_inv A _⟩, ?_, ?_, rfl, rfl⟩
    · rw [show GB.clear B s = newTree B from rfl, show (abs (newTree B)).es = [] by rw [new_entries]]
      exact fun x hx => nomatch hx
    · rw [show GB.clear B s = newTree B from rfl, show (abs (newTree B)).es = [] by rw [new_entries]]
      rfl

theorem textRun_spec {B : Trait E C D} {A : Law B} (hE : LawE A) {R : C → D → C → Prop} (L : DiffLaw A R) {cont : E → List X} (K : ContentLaw B A.okE cont)
    {getLen : C → Nat} (LL : LenLaw A getLen) (hrem : ∀ e, A.okE e → B.canRemove e = true → B.rleLen e = 0) {ho : HashOrd E} (hho : ∀ l, (ho.idx l).Perm l) :
    ∀ (os : List (TextOp E D X)) {s : Tree E C}, Inv A ⟨1, 4⟩ s → (∀ x ∈ (abs s).es, 0 < B.rleLen x.2) →
    textValid B A.okE R cont (content cont (abs s).es) os →
    textShort cont 390626 (content cont (abs s).es) os ∨ textRun B getLen ho s os ≠ .error .panic →
    ∃ outs s', textRun B getLen ho s os = .ok (outs, s') ∧ Inv A ⟨1, 4⟩ s' ∧ (∀ x ∈ (abs s').es, 0 < B.rleLen x.2) ∧
      content cont (abs s').es = textEdit cont (content cont (abs s).es) os ∧ textYields cont (content cont (abs s).es) os outs := by
  intro os
  induction os with
  | nil => intro s hi hpos _ _; exact ⟨[], s, rfl, hi, hpos, rfl, rfl⟩
  | cons o os ih =>
    intro s hi hpos hv hb
    obtain ⟨out, rest, s1, e1, i1, p1, c1, y1⟩ := textStep hE L K LL hrem hho hi hpos hv.1 (hb.imp (fun h => h.1) fun h h' => h (by simp only [textRun, h']; rfl))
    have hr : textRun B getLen ho s (o :: os) = (do let (outs, s) ← textRun B getLen ho s1 os; pure ((out, rest) :: outs, s)) := by
      simp only [textRun, e1, bind_ok]
    obtain ⟨outs, s2, e2, i2, p2, c2, y2⟩ := ih i1 p1 (by rw [c1]; exact hv.2) (hb.imp (fun h => by rw [c1]; exact h.2) fun h h' => h (by rw [hr, h']; rfl))
    rw [c1] at c2 y2
    exact ⟨(out, rest) :: outs, s2, by rw [hr, e2]; rfl, i2, p2, c2, out, rest, outs, rfl, y1, y2⟩

/-- Every history of edits by position, of any length and in every hash order, with fewer than 390 626 units at all times: nothing panics,
the drains yield the units they remove, the root cache holds the length, and `iter` yields the units of the edited list. -/
theorem C67_history {B : Trait E C D} {A : Law B} (hE : LawE A) {R : C → D → C → Prop} (L : DiffLaw A R) {cont : E → List X} (K : ContentLaw B A.okE cont)
    {getLen : C → Nat} (LL : LenLaw A getLen) (hrem : ∀ e, A.okE e → B.canRemove e = true → B.rleLen e = 0) {ho : HashOrd E} (hho : ∀ l, (ho.idx l).Perm l)
    {os : List (TextOp E D X)} (hv : textValid B A.okE R cont [] os) (hs : textShort cont 390626 [] os) :
    ∃ outs s es, textRun B getLen ho (newTree B) os = .ok (outs, s) ∧ textYields cont [] os outs ∧
      iter s = .ok es ∧ es.flatMap cont = textEdit cont [] os ∧ ∀ e ∈ es, 0 < B.rleLen e := by
  have h0 : content cont (abs (newTree B)).es = [] := by rw [show (abs (newTree B)).es = [] by rw [new_entries]]; rfl
  have p0 : ∀ x ∈ (abs (newTree B)).es, 0 < B.rleLen x.2 := by
    rw [show (abs (newTree B)).es = [] by rw [new_entries]]
    exact fun x hx => nomatch hx
  obtain ⟨outs, s, e1, i1, p1, c1, y1⟩ := textRun_spec hE L K LL hrem hho os (s := newTree B) ⟨1, new_inv A _⟩ p0 (by rw [h0]; exact hv) (.inl (by rw [h0]; exact hs))
  rw [h0] at c1 y1
  have hlast : ∀ (os : List (TextOp E D X)) (xs : List X), textShort cont 390626 xs os → (textEdit cont xs os).length < 390626 := by
    intro os
    induction os with
    | nil => intro xs h; exact h
    | cons o os ih => intro xs h; exact ih _ h.2
  obtain ⟨h, h8, hi⟩ := pos_height K i1 p1 (by rw [c1]; exact hlast os [] hs)
  refine ⟨outs, s, _, e1, y1, C08_iter (m := ⟨1, 4⟩) (Nat.le_refl 1) hi (by omega), ?_, ?_⟩
  · rw [← c1, List.flatMap_map]
    rfl
  · intro e he
    obtain ⟨x, hx, rfl⟩ := List.mem_map.mp he
    exact p1 x hx

/-- Without a bound: the history panics or is right. -/
theorem C67_history_any {B : Trait E C D} {A : Law B} (hE : LawE A) {R : C → D → C → Prop} (L : DiffLaw A R) {cont : E → List X} (K : ContentLaw B A.okE cont)
    {getLen : C → Nat} (LL : LenLaw A getLen) (hrem : ∀ e, A.okE e → B.canRemove e = true → B.rleLen e = 0) {ho : HashOrd E} (hho : ∀ l, (ho.idx l).Perm l)
    {os : List (TextOp E D X)} (hv : textValid B A.okE R cont [] os) :
    textRun B getLen ho (newTree B) os = .error .panic ∨
    ∃ outs s, textRun B getLen ho (newTree B) os = .ok (outs, s) ∧ textYields cont [] os outs ∧ Inv A ⟨1, 4⟩ s ∧
      content cont (abs s).es = textEdit cont [] os := by
  have h0 : content cont (abs (newTree B)).es = [] := by rw [show (abs (newTree B)).es = [] by rw [new_entries]]; rfl
  have p0 : ∀ x ∈ (abs (newTree B)).es, 0 < B.rleLen x.2 := by
    rw [show (abs (newTree B)).es = [] by rw [new_entries]]
    exact fun x hx => nomatch hx
  by_cases hn : textRun B getLen ho (newTree B) os = .error .panic
  · exact .inl hn
  obtain ⟨outs, s, e1, i1, -, c1, y1⟩ := textRun_spec hE L K LL hrem hho os (s := newTree B) ⟨1, new_inv A _⟩ p0 (by rw [h0]; exact hv) (.inr hn)
  rw [h0] at c1 y1
  exact .inr ⟨outs, s, e1, y1, i1, c1⟩

/-- apply a function to every byte of a chunk, also to those in the gap -/
def mapBytes (g : UInt8 → UInt8) (b : GapBuf) : GapBuf := { b with buffer := b.buffer.map g }

theorem mapBytes_vec (g : UInt8 → UInt8) (b : GapBuf) : (mapBytes g b).toVec = b.toVec.map g := by
  simp [mapBytes, GapBuf.toVec, GapBuf.asBytes, List.map_take, List.map_drop]

/-- three chunks, one of them in the middle of another, an update from position 2 to 7, and a drain from 1 to 4 -/
def textSample : List (TextOp GapBuf Int UInt8) :=
  [.push ⟨[1, 2, 3, 4], 4, 0⟩, .insert 2 ⟨[10, 11, 12, 0], 3, 1⟩, .prepend ⟨[7, 0, 0, 0], 1, 3⟩, .map 2 7 (mapBytes (· + 100)) (fun _ => none) (· + 100), .drain 1 4 1]

example : ∃ outs s es, textRun ropeTrait ropeLen ⟨List.reverse, id, id⟩ (newTree ropeTrait) textSample = .ok (outs, s) ∧ iter s = .ok es ∧
    es.flatMap GapBuf.toVec = [7, 111, 112, 103, 4] := by
  have hmap : ∀ e, (ropeLaw 4).okE e → (ropeLaw 4).okE (mapBytes (· + 100) e) ∧ (mapBytes (· + 100) e).toVec = e.toVec.map (· + 100) ∧
      (∀ x, (none : Option Int) = some x → ropeTrait.elemCache (mapBytes (· + 100) e) = ropeTrait.elemCache e + x) ∧
      ((none : Option Int) = none → ropeTrait.elemCache (mapBytes (· + 100) e) = ropeTrait.elemCache e) := by
    intro e he
    have h1 : (mapBytes (· + 100) e).len = e.len := by simp [mapBytes, GapBuf.len]
    have he : e.WF ∧ e.capacity = 4 := he
    refine ⟨?_, mapBytes_vec _ e, fun x hx => (nomatch hx), fun _ => ?_⟩
    · show (mapBytes _ e).WF ∧ (mapBytes _ e).capacity = 4
      simpa [mapBytes, GapBuf.WF, GapBuf.capacity] using he
    · show ((mapBytes _ e).len : Int) = e.len
      rw [h1]
  obtain ⟨outs, s, es, h1, -, h2, h3, -⟩ := C67_history (ropeLawE 4) (C21_rope_diffs 4) (ropeContent 4) (ropeLenLaw 4)
    (fun e _ h => by simpa [ropeTrait, GapBuf.canRemove] using h) (ho := ⟨List.reverse, id, id⟩) List.reverse_perm (os := textSample)
    ⟨⟨⟨by simp [GapBuf.WF], rfl⟩, by decide⟩, ⟨⟨by simp [GapBuf.WF], rfl⟩, by decide, by decide⟩, ⟨⟨by simp [GapBuf.WF], rfl⟩, by decide, by decide⟩,
      ⟨by decide, by decide, by decide, hmap⟩, ⟨by decide, by decide, by decide⟩, trivial⟩
    ⟨by decide, by decide, by decide, by decide, by decide, show List.length _ < _ by decide⟩
  exact ⟨outs, s, es, h1, h2, h3.trans (by decide)⟩

/-- a run of six cells is set in a tree of runs, two cells are taken out -/
example := C67_history rangeLawE rangeDiffs rangeContent rangeLenLaw (fun e _ h => by simpa [rangeTrait] using h) (ho := ⟨id, id, id⟩) (fun _ => .refl _)
  (os := [.push ⟨some 5, 6⟩, .insert 3 ⟨none, 2⟩, .drain 2 4 0]) ⟨⟨show 0 < 6 by decide, by decide⟩, ⟨show 0 < 2 by decide, by decide, by decide⟩, ⟨by decide, by decide, by decide⟩, trivial⟩
  ⟨by decide, by decide, by decide, show List.length _ < _ by decide⟩

example := C67_history_any rangeLawE rangeDiffs rangeContent rangeLenLaw (fun e _ h => by simpa [rangeTrait] using h) (ho := ⟨id, id, id⟩) (fun _ => .refl _)
  (os := [.push ⟨some 5, 6⟩, .insert 3 ⟨none, 2⟩, .drain 2 4 0]) ⟨⟨show 0 < 6 by decide, by decide⟩, ⟨show 0 < 2 by decide, by decide, by decide⟩, ⟨by decide, by decide, by decide⟩, trivial⟩

end GB

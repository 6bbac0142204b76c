import Verif.Props.C21
import Verif.Props.C26
import Verif.Proof.SampleTwo

/-!
# C69: ranges over elements of length zero

`drain` and `update` are proved for elements of positive length in C18 and C21.  An element may also have length zero (`rle_len`), e.g. an
empty gap buffer that was collected into the tree.  Positions then no longer fix the order of cursors, so it is stated on the sequence
(`CursorLe`).

* `update` is right for elements of any length: `C69_update`, `C69_update_content`.
* `drain` is right if the element behind the end of the range is not of length zero: `C69_drain_partial`.
* Otherwise it may leave caches behind that are wrong: `Drain::new` (src/iter.rs:60-73) takes for the first leaf behind the range the one after the
  element of length zero, as the end of the range is also its end, and then repairs the caches of the wrong path: `C69_drain_false`.
  Missing from the full statement (`drain` right for all elements) is exactly this case.
-/

namespace GB
variable {E C D X σ : Type}
open Tree

/-- the cursor `a` (behind the entries `Ua`) is not behind the cursor `b` (between the entries `Ub` and `Vb`, in the element `eb`): its leaf
comes first, or it is the same leaf and the offset is not larger, or `b` is the end of a leaf and `a` the start of the next one -/
def CursorLe (B : Trait E C D) (Ua : List (Nat × E)) (a : Cursor) (ea : E) (Ub : List (Nat × E)) (b : Cursor) (eb : E) (Vb : List (Nat × E)) : Prop :=
  (∃ p, Ub = Ua ++ (a.leaf, ea) :: p) ∨ (a.leaf = b.leaf ∧ a.offset ≤ b.offset) ∨
    (b.offset ≠ 0 ∧ b.offset = B.rleLen eb ∧ a.offset = 0 ∧ ∃ r, Vb = (a.leaf, ea) :: r)

/-- the element behind the cursor `b`, if there is one, is not of length zero -/
def CutPos (B : Trait E C D) (t : Seq E) (b : Cursor) : Prop := ∀ L x R n, specCut B t b = .ok (L, x :: R, n) → 0 < B.rleLen x.2

theorem notBehind_of_le {B : Trait E C D} {s : Tree E C} {lvl : Nat → Nat} {h : Nat} (w : WF s lvl h) {a b : Cursor} {ea eb : E} {Ua Va Ub Vb : List Nat}
    (ha : order s = Ua ++ a.leaf :: Va) (hb : order s = Ub ++ b.leaf :: Vb)
    (hle : CursorLe B (entriesOf s Ua) a ea (entriesOf s Ub) b eb (entriesOf s Vb)) : NotBehind B Ua Ub Vb a b eb := by
  have fst : ∀ {ls : List Nat}, (∀ x ∈ ls, x ∈ order s) → (entriesOf s ls).map Prod.fst = ls := fun h => entriesOf_fst w (fun x hx => (mem_order w).mp (h x hx))
  have f1 := fst (ls := Ua) (by rw [ha]; simp +contextual)
  have f2 := fst (ls := Ub) (by rw [hb]; simp +contextual)
  have f3 := fst (ls := Vb) (by rw [hb]; simp +contextual)
  rcases hle with ⟨p, hp⟩ | hq | ⟨h1, h2, h3, r, hr⟩
  · rw [hp] at f2
    exact .inl ⟨p.map Prod.fst, by rw [← f2, List.map_append, f1]; rfl⟩
  · exact .inr (.inl hq)
  · rw [hr] at f3
    exact .inr (.inr ⟨h1, h2, h3, r.map Prod.fst, f3.symm⟩)

theorem endPos_of_cut {B : Trait E C D} {s : Tree E C} {lvl : Nat → Nat} {h : Nat} (w : WF s lvl h) {b : Cursor} {eb : E} {Ub Vb : List Nat}
    (hb : (abs s).es = entriesOf s Ub ++ (b.leaf, eb) :: entriesOf s Vb) (hob : b.offset ≤ B.rleLen eb) (hz : CutPos B (abs s) b) : EndPos B s Vb b eb := by
  have hloc := locate_split (entries_nodup w) hb
  have hc := fun L x R n => hz L x R n
  simp only [specCut, show locate b.leaf (abs s).es = _ from hloc, show ¬ B.rleLen eb < b.offset by omega, if_false] at hc
  refine ⟨fun h0 => ?_, fun h0 h1 l hl x hx => ?_⟩
  · simp only [h0, if_true] at hc
    exact hc _ _ _ _ rfl
  · simp only [h0, if_false, h1.symm, if_true] at hc
    cases Vb with
    | nil => cases hl
    | cons v Vb =>
      cases hl
      rw [entriesOf_cons hx] at hc
      exact hc _ (l, x) _ _ rfl

/-- `drain` for elements of any length; partial: the element behind the end of the range must not be of length zero. -/
theorem C69_drain_partial {B : Trait E C D} {A : Law B} {m : Fill} {h : Nat} {s : Tree E C} (hm : 1 ≤ m.lo ∧ m.lo + m.d ≤ 5) (hi : InvH A m h s)
    (hsl : SplitLen B A.okE) {a b : Cursor} {Ua Va Ub Vb : List (Nat × E)} {ea eb : E}
    (ha : (abs s).es = Ua ++ (a.leaf, ea) :: Va) (hoa : a.offset ≤ B.rleLen ea)
    (hb : (abs s).es = Ub ++ (b.leaf, eb) :: Vb) (hob : b.offset ≤ B.rleLen eb)
    (hle : CursorLe B Ua a ea Ub b eb Vb) (hz : CutPos B (abs s) b)
    (hend : a.offset = 0 ∨ a.offset < B.rleLen ea ∨ Va ≠ []) (fa fb : Bool) (k : Nat)
    (hh : h ≤ 8 ∨ drain B s ⟨a, fa⟩ ⟨b, fb⟩ k ≠ .error .panic) :
    ∃ Y s' h', drain B s ⟨a, fa⟩ ⟨b, fb⟩ k = .ok ((Y.take k).map Prod.snd, (Y.drop k).map Prod.snd, s') ∧
      specDrain B (abs s) a b = .ok (Y, abs s') ∧ InvH A m.drained h' s' ∧ h' ≤ h + 1 := by
  obtain ⟨⟨lvl, g⟩, sz⟩ := hi
  obtain ⟨ua, va, o1, rfl, e1, hea⟩ := entries_split g.wf ha
  obtain ⟨ub, vb, o2, rfl, e2, heb⟩ := entries_split g.wf hb
  subst e2
  obtain ⟨Y, s', lvl', h', d1, d2, d3, d4, L, R, X, n, k1, k2, k3⟩ := drain_spec_at hm.1 hm.2 g sz hsl o1 hea hoa o2 heb hob
    (notBehind_of_le g.wf o1 o2 hle) (endPos_of_cut g.wf hb hob hz) (hend.imp id (Or.imp id fun hv hc => hv (by rw [e1, hc]; rfl))) fa fb k hh
  refine ⟨Y, s', h', d1, ?_, ⟨⟨lvl', d2⟩, d3⟩, d4⟩
  simp only [specDrain, k1, bind_ok, k2, pure_ok, List.length_append, Nat.add_sub_cancel, List.take_left]
  rw [abs, k3]

/-- When `drain` panics, for elements of any length. -/
theorem C69_drain_panics_iff_partial {B : Trait E C D} {A : Law B} {m : Fill} {h : Nat} {s : Tree E C} (hm : 1 ≤ m.lo ∧ m.lo + m.d ≤ 5) (hi : InvH A m h s)
    (hsl : SplitLen B A.okE) {a b : Cursor} {Ua Va Ub Vb : List (Nat × E)} {ea eb : E}
    (ha : (abs s).es = Ua ++ (a.leaf, ea) :: Va) (hoa : a.offset ≤ B.rleLen ea)
    (hb : (abs s).es = Ub ++ (b.leaf, eb) :: Vb) (hob : b.offset ≤ B.rleLen eb)
    (hle : CursorLe B Ua a ea Ub b eb Vb) (hz : CutPos B (abs s) b)
    (hend : a.offset = 0 ∨ a.offset < B.rleLen ea ∨ Va ≠ []) (fa fb : Bool) (k : Nat) :
    drain B s ⟨a, fa⟩ ⟨b, fb⟩ k = .error .panic ↔ 10 ≤ h ∨ h = 9 ∧ CutsRaise B s a b := by
  obtain ⟨⟨lvl, g⟩, sz⟩ := hi
  obtain ⟨ua, va, o1, rfl, e1, hea⟩ := entries_split g.wf ha
  obtain ⟨ub, vb, o2, rfl, e2, heb⟩ := entries_split g.wf hb
  subst e2
  exact drain_panics_at hm.1 hm.2 g sz hsl o1 hea hoa o2 heb hob
    (notBehind_of_le g.wf o1 o2 hle) (endPos_of_cut g.wf hb hob hz) (hend.imp id (Or.imp id fun hv hc => hv (by rw [e1, hc]; rfl))) fa fb k

/-- `update` for elements of any length. -/
theorem C69_update {B : Trait E C D} {A : Law B} {R : C → D → C → Prop} (L : DiffLaw A R) {m : Fill} {h : Nat} {s : Tree E C} (hm : 1 ≤ m.lo ∧ m.lo + m.d ≤ 5)
    (hE : 2 ≤ m.lo ∨ LawE A) (hi : InvH A m h s) (hsl : SplitLen B A.okE)
    {ho : HashOrd E} (hho : ∀ l, (ho.idx l).Perm l) {f : σ → E → M (σ × E × Option D)} (hf : ClosureOK A R f) (st : σ)
    {a b : Cursor} {Ua Va Ub Vb : List (Nat × E)} {ea eb : E} (ha : (abs s).es = Ua ++ (a.leaf, ea) :: Va) (hoa : a.offset ≤ B.rleLen ea)
    (hb : (abs s).es = Ub ++ (b.leaf, eb) :: Vb) (hob : b.offset ≤ B.rleLen eb) (hle : CursorLe B Ua a ea Ub b eb Vb)
    (hh : h ≤ 8 ∨ update B ho f st s a b ≠ .error .panic) :
    ∃ st' s' h', update B ho f st s a b = .ok (st', List.range' (abs s).next ((abs s').next - (abs s).next), s') ∧
      specUpdate B f st (abs s) a b = .ok (st', abs s') ∧ InvH A m h' s' ∧ h' ≤ h + 1 ∧ (abs s).next ≤ (abs s').next := by
  obtain ⟨⟨lvl, g⟩, sz⟩ := hi
  obtain ⟨ua, va, o1, rfl, e1, hea⟩ := entries_split g.wf ha
  obtain ⟨ub, vb, o2, rfl, e2, heb⟩ := entries_split g.wf hb
  subst e2
  obtain ⟨st', s', lvl', h', u1, u2, u3, u4, u5, L', R', X, n, Y, Y', k1, k2, k3, k4⟩ := update_spec_at hm.1 hm.2 hE L hho hf st g sz hsl
    o1 hea hoa o2 heb hob (notBehind_of_le g.wf o1 o2 hle) hh
  refine ⟨st', s', h', u1, ?_, ⟨⟨lvl', u3⟩, u4⟩, u5, u2⟩
  simp only [specUpdate, k1, bind_ok, k2, List.length_append, Nat.add_sub_cancel, List.take_left, k3, pure_ok]
  rw [abs, k4]

/-- when `update` panics, for elements of any length -/
theorem C69_update_panics_iff {B : Trait E C D} {A : Law B} {R : C → D → C → Prop} (L : DiffLaw A R) {m : Fill} {h : Nat} {s : Tree E C} (hm : 1 ≤ m.lo ∧ m.lo + m.d ≤ 5)
    (hE : 2 ≤ m.lo ∨ LawE A) (hi : InvH A m h s) (hsl : SplitLen B A.okE)
    {ho : HashOrd E} (hho : ∀ l, (ho.idx l).Perm l) {f : σ → E → M (σ × E × Option D)} (hf : ClosureOK A R f) (st : σ)
    {a b : Cursor} {Ua Va Ub Vb : List (Nat × E)} {ea eb : E} (ha : (abs s).es = Ua ++ (a.leaf, ea) :: Va) (hoa : a.offset ≤ B.rleLen ea)
    (hb : (abs s).es = Ub ++ (b.leaf, eb) :: Vb) (hob : b.offset ≤ B.rleLen eb) (hle : CursorLe B Ua a ea Ub b eb Vb)
    (hend : a.offset = 0 ∨ a.offset < B.rleLen ea ∨ Va ≠ []) :
    update B ho f st s a b = .error .panic ↔ 10 ≤ h ∨ h = 9 ∧ CutsRaise B s a b := by
  obtain ⟨⟨lvl, g⟩, sz⟩ := hi
  obtain ⟨ua, va, o1, rfl, e1, hea⟩ := entries_split g.wf ha
  obtain ⟨ub, vb, o2, rfl, e2, heb⟩ := entries_split g.wf hb
  subst e2
  exact update_panics_at hm.1 hm.2 hE L hho hf st g sz hsl o1 hea hoa o2 heb hob (notBehind_of_le g.wf o1 o2 hle)
    (hend.imp id (Or.imp id fun hv hc => hv (by rw [e1, hc]; rfl)))

/-- cursors that are not behind one another have positions that are not behind one another -/
theorem pos_le {B : Trait E C D} {es Ua Va Ub Vb : List (Nat × E)} {a b : Cursor} {ea eb : E} (nd : (es.map Prod.fst).Nodup)
    (ha : es = Ua ++ (a.leaf, ea) :: Va) (hoa : a.offset ≤ B.rleLen ea) (hb : es = Ub ++ (b.leaf, eb) :: Vb)
    (hle : CursorLe B Ua a ea Ub b eb Vb) : unitLen B Ua + a.offset ≤ unitLen B Ub + b.offset := by
  rcases hle with ⟨p, hp⟩ | ⟨h1, h2⟩ | ⟨h1, h2, h3, r, hr⟩
  · rw [hp, unitLen_append, unitLen_cons]
    simp only
    omega
  · have h3 := locate_split nd ha
    rw [h1, locate_split nd hb] at h3
    cases h3
    omega
  · subst hr
    have h3 := locate_split nd ha
    have hb' : es = (Ub ++ [(b.leaf, eb)]) ++ (a.leaf, ea) :: r := by rw [hb]; simp
    rw [locate_split nd hb'] at h3
    cases h3
    rw [unitLen_append, unitLen_cons]
    simp only [unitLen, List.map_nil, List.sum_nil]
    omega

/-- In units: from the position `i` of the start to the position `j` of the end everything is taken out, and nothing else. -/
theorem C69_drain_content_partial {B : Trait E C D} {A : Law B} {cont : E → List X} (K : ContentLaw B A.okE cont) {m : Fill} {h : Nat} {s : Tree E C}
    (hm : 1 ≤ m.lo ∧ m.lo + m.d ≤ 5) (hi : InvH A m h s) {a b : Cursor} {Ua Va Ub Vb : List (Nat × E)} {ea eb : E} {i j : Nat}
    (ha : (abs s).es = Ua ++ (a.leaf, ea) :: Va) (hoa : a.offset ≤ B.rleLen ea) (hia : unitLen B Ua + a.offset = i)
    (hb : (abs s).es = Ub ++ (b.leaf, eb) :: Vb) (hob : b.offset ≤ B.rleLen eb) (hjb : unitLen B Ub + b.offset = j)
    (hle : CursorLe B Ua a ea Ub b eb Vb) (hz : CutPos B (abs s) b)
    (hend : a.offset = 0 ∨ a.offset < B.rleLen ea ∨ Va ≠ []) (fa fb : Bool) (k : Nat)
    (hh : h ≤ 8 ∨ drain B s ⟨a, fa⟩ ⟨b, fb⟩ k ≠ .error .panic) :
    ∃ Y s' h', drain B s ⟨a, fa⟩ ⟨b, fb⟩ k = .ok ((Y.take k).map Prod.snd, (Y.drop k).map Prod.snd, s') ∧ InvH A m.drained h' s' ∧ h' ≤ h + 1 ∧
      content cont Y = ((content cont (abs s).es).drop i).take (j - i) ∧
      content cont (abs s').es = (content cont (abs s).es).take i ++ (content cont (abs s).es).drop j := by
  obtain ⟨⟨lvl, g⟩, sz⟩ := hi
  have nd := entries_nodup g.wf
  have hij := pos_le nd ha hoa hb hle
  have hpa : posOf B (abs s) a = some i := by
    rw [posOf, show locate a.leaf (abs s).es = _ from locate_split nd ha, ← hia]; rfl
  have hpb : posOf B (abs s) b = some j := by
    rw [posOf, show locate b.leaf (abs s).es = _ from locate_split nd hb, ← hjb]; rfl
  have hj : j ≤ unitLen B (abs s).es := by
    rw [hb, unitLen_append, unitLen_cons]
    simp only
    omega
  obtain ⟨ua, va, o1, rfl, e1, hea⟩ := entries_split g.wf ha
  obtain ⟨ub, vb, o2, rfl, e2, heb⟩ := entries_split g.wf hb
  subst e2
  obtain ⟨Y, s', lvl', h', d1, d2, d3, d4, L, R, X, n, k1, k2, k3⟩ := drain_spec_at hm.1 hm.2 g sz K.splitLen o1 hea hoa o2 heb hob
    (notBehind_of_le g.wf o1 o2 hle) (endPos_of_cut g.wf hb hob hz) (hend.imp id (Or.imp id fun hv hc => hv (by rw [e1, hc]; rfl))) fa fb k hh
  have hfr : (abs s).next ∉ (abs s).es.map Prod.fst := by
    show s.lf.items.length ∉ (entries s).map Prod.fst
    rw [entries_fst g.wf]; exact fresh_order g.wf
  have hok : ∀ x ∈ (abs s).es, A.okE x.2 := fun x hx => g.okE x.1 x.2 ((entries_mem g.wf).mp hx)
  have hsp : ∀ e i x y, A.okE e → 0 < i → i < B.rleLen e → B.split e i = .ok (x, y) →
      A.okE x ∧ A.okE y ∧ cont x = (cont e).take i ∧ cont y = (cont e).drop i := by
    intro e i x y he h0 h1 hs
    obtain ⟨x', y', q1, q2, q3, -⟩ := A.split e i he h0 h1
    rw [hs] at q1
    cases q1
    obtain ⟨c1, c2⟩ := K.split e i x y he h0 h1 hs
    exact ⟨q2, q3, c1, c2⟩
  obtain ⟨c1, c2, c3⟩ := drain_content (fun e he => K.len e he) hsp hok nd hfr k1 k2 hpa hpb
  refine ⟨Y, s', h', d1, ⟨⟨lvl', d2⟩, d3⟩, d4, ?_, ?_⟩
  · rw [← c3, content_append]
    have hl := congrArg List.length c3
    rw [content_append, c2, List.length_append, List.length_drop, List.length_drop] at hl
    have ht : j ≤ (content cont (abs s).es).length := by rw [content_length K hok]; exact hj
    rw [show j - i = (content cont Y).length by omega, List.take_left]
  · show content cont (entries s') = _
    rw [k3, content_append, c1, c2]

/-- In units: the closure is run, from left to right, over pieces `Y` that make up exactly the units from `i` to `j`. -/
theorem C69_update_content {B : Trait E C D} {A : Law B} {R : C → D → C → Prop} (L : DiffLaw A R) {cont : E → List X} (K : ContentLaw B A.okE cont)
    {m : Fill} {h : Nat} {s : Tree E C} (hm : 1 ≤ m.lo ∧ m.lo + m.d ≤ 5) (hE : 2 ≤ m.lo ∨ LawE A) (hi : InvH A m h s)
    {ho : HashOrd E} (hho : ∀ l, (ho.idx l).Perm l) {f : σ → E → M (σ × E × Option D)} (hf : ClosureOK A R f) (st : σ)
    {a b : Cursor} {Ua Va Ub Vb : List (Nat × E)} {ea eb : E} {i j : Nat}
    (ha : (abs s).es = Ua ++ (a.leaf, ea) :: Va) (hoa : a.offset ≤ B.rleLen ea) (hia : unitLen B Ua + a.offset = i)
    (hb : (abs s).es = Ub ++ (b.leaf, eb) :: Vb) (hob : b.offset ≤ B.rleLen eb) (hjb : unitLen B Ub + b.offset = j)
    (hle : CursorLe B Ua a ea Ub b eb Vb)
    (hh : h ≤ 8 ∨ update B ho f st s a b ≠ .error .panic) :
    ∃ Y st' Y' s' h', update B ho f st s a b = .ok (st', List.range' (abs s).next ((abs s').next - (abs s).next), s') ∧ InvH A m h' s' ∧ h' ≤ h + 1 ∧
      content cont Y = ((content cont (abs s).es).drop i).take (j - i) ∧ (∀ x ∈ Y, A.okE x.2) ∧ runOn f st Y = .ok (st', Y') ∧
      content cont (abs s').es = (content cont (abs s).es).take i ++ content cont (Y'.filter fun x => !B.canRemove x.2) ++ (content cont (abs s).es).drop j := by
  obtain ⟨⟨lvl, g⟩, sz⟩ := hi
  have nd := entries_nodup g.wf
  have hij := pos_le nd ha hoa hb hle
  have hpa : posOf B (abs s) a = some i := by
    rw [posOf, show locate a.leaf (abs s).es = _ from locate_split nd ha, ← hia]; rfl
  have hpb : posOf B (abs s) b = some j := by
    rw [posOf, show locate b.leaf (abs s).es = _ from locate_split nd hb, ← hjb]; rfl
  have hj : j ≤ unitLen B (abs s).es := by
    rw [hb, unitLen_append, unitLen_cons]
    simp only
    omega
  obtain ⟨ua, va, o1, rfl, e1, hea⟩ := entries_split g.wf ha
  obtain ⟨ub, vb, o2, rfl, e2, heb⟩ := entries_split g.wf hb
  subst e2
  obtain ⟨st', s', lvl', h', u1, u2, u3, u4, u5, L', R', X, n, Y, Y', k1, k2, k3, k4⟩ := update_spec_at hm.1 hm.2 hE L hho hf st g sz K.splitLen
    o1 hea hoa o2 heb hob (notBehind_of_le g.wf o1 o2 hle) hh
  have hfr : (abs s).next ∉ (abs s).es.map Prod.fst := by
    show s.lf.items.length ∉ (entries s).map Prod.fst
    rw [entries_fst g.wf]; exact fresh_order g.wf
  have hok : ∀ x ∈ (abs s).es, A.okE x.2 := fun x hx => g.okE x.1 x.2 ((entries_mem g.wf).mp hx)
  have hsp : ∀ e i x y, A.okE e → 0 < i → i < B.rleLen e → B.split e i = .ok (x, y) →
      A.okE x ∧ A.okE y ∧ cont x = (cont e).take i ∧ cont y = (cont e).drop i := by
    intro e i x y he h0 h1 hs
    obtain ⟨x', y', q1, q2, q3, -⟩ := A.split e i he h0 h1
    rw [hs] at q1
    cases q1
    obtain ⟨c1, c2⟩ := K.split e i x y he h0 h1 hs
    exact ⟨q2, q3, c1, c2⟩
  obtain ⟨c1, c2, c3⟩ := drain_content (fun e he => K.len e he) hsp hok nd hfr k1 k2 hpa hpb
  have hsp' := fun e i x y h1 h2 h3 h4 => And.intro (hsp e i x y h1 h2 h3 h4).1 (hsp e i x y h1 h2 h3 h4).2.1
  have ok2 := specCut_ok hsp' (t := ⟨n, L' ++ R'⟩) (specCut_ok hsp' hok k1) k2
  refine ⟨Y, st', Y', s', h', u1, ⟨⟨lvl', u3⟩, u4⟩, u5, ?_, fun x hx => ok2 x (by simp [hx]), k3, ?_⟩
  · rw [← c3, content_append]
    have hl := congrArg List.length c3
    rw [content_append, c2, List.length_append, List.length_drop, List.length_drop] at hl
    have ht : j ≤ (content cont (abs s).es).length := by rw [content_length K hok]; exact hj
    rw [show j - i = (content cont Y).length by omega, List.take_left]
  · show content cont (entries s') = _
    rw [k4, content_append, content_append, c1, c2]

/-- forty chunks of three bytes, except that chunk `z` is empty -/
def zeroChunks (z : Nat) : List GapBuf := (List.range 40).map fun i => if i = z then ⟨[0, 0, 0, 0], 0, 4⟩ else ⟨[UInt8.ofNat i, 1, 2, 0], 3, 1⟩

theorem zeroChunks_ok (z : Nat) : ∀ e ∈ zeroChunks z, (ropeLaw 4).okE e := by
  intro e he
  obtain ⟨i, -, rfl⟩ := List.mem_map.mp he
  split <;> exact ⟨by simp [GapBuf.WF, GapBuf.len], rfl⟩

/-- drain from chunk `a` to the empty chunk `z` without a panic, and test the tree that is left -/
def zeroDrain (a z : Nat) (p : Tree GapBuf Int → Bool) : Bool :=
  match fromIter ropeTrait (zeroChunks z) with
  | .ok s =>
    match drain ropeTrait s ⟨⟨a, 0⟩, true⟩ ⟨⟨z, 0⟩, true⟩ 0 with
    | .ok (_, _, s') => p s'
    | .error _ => false
  | .error _ => false

theorem zeroDrain_true {a z : Nat} {p : Tree GapBuf Int → Bool} (h : zeroDrain a z p = true) :
    ∃ s out rest s', fromIter ropeTrait (zeroChunks z) = .ok s ∧ drain ropeTrait s ⟨⟨a, 0⟩, true⟩ ⟨⟨z, 0⟩, true⟩ 0 = .ok (out, rest, s') ∧ p s' = true := by
  simp only [zeroDrain] at h
  split at h
  · next s h1 =>
    split at h
    · next out rest s' h2 => exact ⟨s, out, rest, s', h1, h2, h⟩
    · cases h
  · cases h

def accepts (s : Tree GapBuf Int) : Bool := match check ropeTrait s with | .ok _ => true | .error _ => false

/-- Forty chunks are collected into a tree; chunk 19 is empty.  The tree is valid.  Draining from chunk 10 up to chunk 19 does not panic and
takes the right chunks out, but the cache of the root says 117 bytes where 90 are left, and `check` fails. -/
theorem C69_drain_false :
    ∃ s out rest s', fromIter ropeTrait (zeroChunks 19) = .ok s ∧ Inv (ropeLaw 4) 1 s ∧
      drain ropeTrait s ⟨⟨10, 0⟩, true⟩ ⟨⟨19, 0⟩, true⟩ 0 = .ok (out, rest, s') ∧
      s'.rootCache = 117 ∧ ((abs s').es.map fun x => x.2.len).sum = 90 ∧ check ropeTrait s' ≠ .ok () := by
  obtain ⟨t, h1, h2, -⟩ := C26_from_iter_elems (ropeLaw 4) (zeroChunks 19) (zeroChunks_ok 19)
  obtain ⟨s, out, rest, s', k1, k2, k3⟩ := zeroDrain_true (a := 10) (z := 19)
    (p := fun s => s.rootCache == 117 && ((abs s).es.map fun x => x.2.len).sum == 90 && !accepts s) (by decide +kernel)
  rw [h1] at k1
  cases k1
  simp only [Bool.and_eq_true, beq_iff_eq, Bool.not_eq_true'] at k3
  refine ⟨t, out, rest, s', h1, h2, k2, k3.1.1, k3.1.2, fun hc => ?_⟩
  simp [accepts, hc] at k3

/-- the tree of the forty chunks -/
theorem zero_tree (z : Nat) : ∃ s h, fromIter ropeTrait (zeroChunks z) = .ok s ∧ InvH (ropeLaw 4) 1 h s ∧ h ≤ 8 ∧
    (abs s).es = (List.range 40).zip (zeroChunks z) := by
  obtain ⟨s, h, h1, h2, h3, h4⟩ := C26_from_iter (ropeLaw 4) (zeroChunks z) (zeroChunks_ok z)
  have hl : (zeroChunks z).length = 40 := by simp [zeroChunks]
  rw [hl] at h3 h4
  refine ⟨s, h, h1, h2, Nat.le_of_not_lt fun hc => ?_, by rw [h3]⟩
  have := h4 (by omega)
  have : 10 ^ 2 ≤ 10 ^ (h - 1) := Nat.pow_le_pow_right (by decide) (by omega)
  omega

/-- From inside chunk 3 to inside chunk 25, with the empty chunk 19 in the range; and from the empty chunk on. -/
example : ∃ s Y s', fromIter ropeTrait (zeroChunks 19) = .ok s ∧ drain ropeTrait s ⟨⟨3, 1⟩, true⟩ ⟨⟨25, 1⟩, true⟩ 4 = .ok ((Y.take 4).map Prod.snd, (Y.drop 4).map Prod.snd, s') ∧
    content GapBuf.toVec Y = ((content GapBuf.toVec (abs s).es).drop 10).take 63 := by
  obtain ⟨s, h, h1, h2, h8, h3⟩ := zero_tree 19
  obtain ⟨Y, s', h', d1, -, -, d2, -⟩ := C69_drain_content_partial (ropeContent 4) (by decide) h2 (a := ⟨3, 1⟩) (b := ⟨25, 1⟩) (i := 10) (j := 73)
    (ea := ⟨[3, 1, 2, 0], 3, 1⟩) (eb := ⟨[25, 1, 2, 0], 3, 1⟩)
    (Ua := ((List.range 40).zip (zeroChunks 19)).take 3) (Va := ((List.range 40).zip (zeroChunks 19)).drop 4)
    (by rw [h3]; rfl) (by decide) (by decide)
    (Ub := ((List.range 40).zip (zeroChunks 19)).take 25) (Vb := ((List.range 40).zip (zeroChunks 19)).drop 26)
    (by rw [h3]; rfl) (by decide) (by decide) (.inl ⟨(((List.range 40).zip (zeroChunks 19)).take 25).drop 4, rfl⟩)
    (by
      intro L x R n hx
      simp only [specCut, h3] at hx
      cases hx
      exact Nat.succ_pos _) (.inr (.inl (by decide))) true true 4 (.inl h8)
  exact ⟨s, Y, s', h1, d1, d2⟩

/-- `update` on a range that ends at the empty chunk -/
example : ∃ s st' ids s', fromIter ropeTrait (zeroChunks 19) = .ok s ∧ update ropeTrait ⟨List.reverse, id, id⟩ wipe 0 s ⟨10, 0⟩ ⟨19, 0⟩ = .ok (st', ids, s') ∧
    Inv (ropeLaw 4) 1 s' ∧ content GapBuf.toVec (abs s').es = (content GapBuf.toVec (abs s).es).take 30 ++ (content GapBuf.toVec (abs s).es).drop 57 := by
  obtain ⟨s, h, h1, h2, h8, h3⟩ := zero_tree 19
  obtain ⟨st', s', h', d1, d2, d3, -⟩ := C69_update (C21_rope_diffs 4) (by decide) (.inr (ropeLawE 4)) h2 (ropeContent 4).splitLen
    (ho := ⟨List.reverse, id, id⟩) List.reverse_perm (wipe_ok 4) 0 (a := ⟨10, 0⟩) (b := ⟨19, 0⟩)
    (ea := ⟨[10, 1, 2, 0], 3, 1⟩) (eb := ⟨[0, 0, 0, 0], 0, 4⟩)
    (Ua := ((List.range 40).zip (zeroChunks 19)).take 10) (Va := ((List.range 40).zip (zeroChunks 19)).drop 11)
    (by rw [h3]; rfl) (by decide)
    (Ub := ((List.range 40).zip (zeroChunks 19)).take 19) (Vb := ((List.range 40).zip (zeroChunks 19)).drop 20)
    (by rw [h3]; rfl) (by decide) (.inl ⟨(((List.range 40).zip (zeroChunks 19)).take 19).drop 11, rfl⟩) (.inl h8)
  refine ⟨s, _, _, s', h1, d1, ⟨h', d3⟩, ?_⟩
  have he : specUpdate ropeTrait wipe 0 (abs s) ⟨10, 0⟩ ⟨19, 0⟩ = specUpdate ropeTrait wipe 0 ⟨(abs s).next, (List.range 40).zip (zeroChunks 19)⟩ ⟨10, 0⟩ ⟨19, 0⟩ := by
    rw [← h3]
  rw [he] at d2
  have hx : (abs s').es = ((List.range 40).zip (zeroChunks 19)).take 10 ++ ((List.range 40).zip (zeroChunks 19)).drop 19 := by
    injection d2 with d2
    injection d2 with _ d2
    rw [← d2]
    rfl
  rw [hx, h3]
  rfl

/-- The case that goes wrong is that of an empty chunk at the end of its node. -/
example : zeroDrain 10 18 (fun s => s.rootCache == 93 && ((abs s).es.map fun x => x.2.len).sum == 93 && accepts s) = true := by decide +kernel

/-- from the middle of chunk 3 to the middle of chunk 20 -/
example := C69_update_content (C21_rope_diffs 4) (ropeContent 4) (by decide) (.inl (by decide)) ropeSample_two
  (ho := ⟨List.reverse, id, id⟩) List.reverse_perm (wipe_ok 4) 0 (a := ⟨3, 1⟩) (b := ⟨20, 2⟩)
  (ropeSample_at (k := 3) (by decide)) (by decide) rfl (ropeSample_at (k := 20) (by decide)) (by decide) rfl (.inl ⟨chunks 4 16, rfl⟩) (.inl (by decide))

example : update ropeTrait ⟨List.reverse, id, id⟩ wipe 0 ropeSample ⟨3, 1⟩ ⟨20, 2⟩ ≠ .error .panic := by
  rw [ne_eq, C69_update_panics_iff (C21_rope_diffs 4) (by decide) (.inl (by decide)) ropeSample_two (ropeContent 4).splitLen
    (ho := ⟨List.reverse, id, id⟩) List.reverse_perm (wipe_ok 4) 0 (a := ⟨3, 1⟩) (b := ⟨20, 2⟩)
    (ropeSample_at (k := 3) (by decide)) (by decide) (ropeSample_at (k := 20) (by decide)) (by decide) (.inl ⟨chunks 4 16, rfl⟩) (.inr (.inl (by decide)))]
  omega

private theorem cutPos20 : CutPos ropeTrait (abs ropeSample) ⟨20, 2⟩ := by
  intro L x R n h
  have hc : (match specCut ropeTrait (⟨30, chunks 0 30⟩ : Seq GapBuf) ⟨20, 2⟩ with
    | .ok (_, x :: _, _) => decide (0 < ropeTrait.rleLen x.2)
    | _ => true) = true := by decide +kernel
  have he : abs ropeSample = ⟨30, chunks 0 30⟩ := by
    rw [← ropeSample_es]; rfl
  rw [← he, h] at hc
  exact of_decide_eq_true hc

example := C69_drain_partial (by decide) ropeSample_two (ropeContent 4).splitLen (a := ⟨3, 1⟩) (b := ⟨20, 2⟩)
  (ropeSample_at (k := 3) (by decide)) (by decide) (ropeSample_at (k := 20) (by decide)) (by decide) (.inl ⟨chunks 4 16, rfl⟩) cutPos20 (.inr (.inl (by decide)))
  true true 2 (.inl (by decide))

example : drain ropeTrait ropeSample ⟨⟨3, 1⟩, true⟩ ⟨⟨20, 2⟩, true⟩ 2 ≠ .error .panic := by
  rw [ne_eq, C69_drain_panics_iff_partial (by decide) ropeSample_two (ropeContent 4).splitLen (a := ⟨3, 1⟩) (b := ⟨20, 2⟩)
    (ropeSample_at (k := 3) (by decide)) (by decide) (ropeSample_at (k := 20) (by decide)) (by decide) (.inl ⟨chunks 4 16, rfl⟩) cutPos20 (.inr (.inl (by decide)))
    true true 2]
  omega

end GB

import Verif.Proof.Leak
import Verif.Props.C61

/-!
# C62: a `Drain` that is never dropped

Safe Rust may leak a value (`std::mem::forget`), so the destructor of `Drain` need not run.  The containers of the standard library
stay usable then (`Vec::drain` leaves a shorter vector).

Here this holds only as long as `next` has not been called (`C62_unused_partial`): the elements at the borders have been cut, nothing else.  Every
element taken is removed from the arena, but its node still lists it.  From then on `iter` panics, while `check` still succeeds: it looks
at the leaves in the arena and never at those the nodes list.  `C62_leak` says so for all trees, `C62_leak_false` is a witness.
-/

namespace GB
variable {E C D X : Type}
open Tree

/-- The tree after `k` calls of `next`: it cannot be read if an element has been taken, and `check` never notices. -/
theorem C62_leak [DecidableEq C] {B : Trait E C D} {A : Law B} {cont : E → List X} (K : ContentLaw B A.okE cont) {m : Fill} {h : Nat} {s : Tree E C}
    (hm : 1 ≤ m.lo ∧ m.lo + m.d ≤ 5) (hi : InvH A m h s) (hh : h ≤ 8) (hpos : ∀ x ∈ (abs s).es, 0 < B.rleLen x.2)
    {a b : Cursor} {Ua Va Ub Vb : List (Nat × E)} {ea eb : E} {i j : Nat}
    (ha : (abs s).es = Ua ++ (a.leaf, ea) :: Va) (hoa : a.offset ≤ B.rleLen ea) (hia : unitLen B Ua + a.offset = i)
    (hb : (abs s).es = Ub ++ (b.leaf, eb) :: Vb) (hob : b.offset ≤ B.rleLen eb) (hjb : unitLen B Ub + b.offset = j)
    (hle : i ≤ j) (hend : i < unitLen B (abs s).es) (fa fb : Bool) :
    ∃ d Y h', drainNew B s (some ⟨a, fa⟩) (some ⟨b, fb⟩) = .ok d ∧ InvH A m h' d.tree ∧ h' ≤ h + 1 ∧ content cont (abs d.tree).es = content cont (abs s).es ∧
      content cont Y = ((content cont (abs s).es).drop i).take (j - i) ∧
      ∀ k, ∃ d', drainTake k d = .ok ((Y.take k).map Prod.snd, d') ∧ check B d'.tree = .ok () ∧
        iter d'.tree = if Y.take k = [] then .ok ((abs d.tree).es.map Prod.snd) else .error .panic := by
  obtain ⟨⟨lvl, g⟩, sz⟩ := hi
  have nd := entries_nodup g.wf
  have hpa : posOf B (abs s) a = some i := by
    rw [posOf, show locate a.leaf (abs s).es = _ from locate_split nd ha, ← hia]; rfl
  have hpb : posOf B (abs s) b = some j := by
    rw [posOf, show locate b.leaf (abs s).es = _ from locate_split nd hb, ← hjb]; rfl
  obtain ⟨ua, va, o1, rfl, -, hea⟩ := entries_split g.wf ha
  obtain ⟨ub, vb, o2, rfl, -, heb⟩ := entries_split g.wf hb
  have hsl := K.splitLen
  obtain ⟨d, lvl2, h2, X, Y, Z, L, n, d1, g2, sz2, hh2, d4, k1, k2, d5⟩ := leak_spec hm.1 hm.2 g sz hh hsl
    (fun l x hx => hpos (l, x) ((entries_mem g.wf).mpr hx)) o1 hea hoa o2 heb hob (by omega) (by rw [hia]; exact hend) fa fb
  have hfr : (abs s).next ∉ (abs s).es.map Prod.fst := by
    show s.lf.items.length ∉ (entries s).map Prod.fst
    rw [entries_fst g.wf]; exact fresh_order g.wf
  have hok : ∀ x ∈ (abs s).es, A.okE x.2 := fun x hx => g.okE x.1 x.2 ((entries_mem g.wf).mp hx)
  have hsp : ∀ e i x y, A.okE e → 0 < i → i < B.rleLen e → B.split e i = .ok (x, y) →
      A.okE x ∧ A.okE y ∧ cont x = (cont e).take i ∧ cont y = (cont e).drop i := by
    intro e i x y he h0 h1 hs
    obtain ⟨x', y', q1, q2, q3, -⟩ := A.split e i he h0 h1
    rw [hs] at q1
    cases q1
    obtain ⟨c1, c2⟩ := K.split e i x y he h0 h1 hs
    exact ⟨q2, q3, c1, c2⟩
  obtain ⟨c1, c2, c3⟩ := drain_content (fun e he => K.len e he) hsp hok nd hfr k1 k2 hpa hpb
  have ne2 := Sz.ne sz2 hm.1
  refine ⟨d, Y, h2, d1, ⟨⟨lvl2, g2⟩, sz2⟩, hh2, ?_, ?_, fun k => ?_⟩
  · show content cont (entries d.tree) = _
    rw [d4, List.append_assoc, content_append, c1, c3, List.take_append_drop]
  · rw [← c3, content_append]
    have hl := congrArg List.length c3
    rw [content_append, c2, List.length_append, List.length_drop, List.length_drop] at hl
    have ht : j ≤ (content cont (abs s).es).length := by
      rw [content_length K hok, hb, ← hjb, unitLen_append, unitLen_cons]
      simp only
      omega
    rw [show j - i = (content cont Y).length by omega, List.take_left]
  · obtain ⟨d', t1, t2, t3⟩ := d5 k
    have hne : order d.tree ≠ [] := by
      intro hc
      have : entries d.tree = [] := by rw [entries, hc]; rfl
      rw [this] at d4
      have e0 := congrArg (content cont) d4
      rw [List.append_assoc, content_append, c1, c3, List.take_append_drop] at e0
      have := congrArg List.length e0
      rw [content_length K hok] at this
      simp [content] at this
      omega
    have hF : ∀ l, d'.tree.lf.get l = none ∨ d'.tree.lf.get l = d.tree.lf.get l := by
      intro l
      rw [t3 l]
      split
      · exact .inl rfl
      · exact .inr rfl
    refine ⟨d', t1, ?_, ?_⟩
    · rw [t2]
      exact check_dead g2 ne2 (by omega) hF (fun h => absurd h hne)
    · split
      · next h0 =>
        have hall : d'.tree.lf.get = d.tree.lf.get := by
          funext l
          rw [t3 l, h0]; rfl
        rw [t2, iter_same hall]
        exact iter_spec g2.wf ne2 (by omega)
      · next h0 =>
        obtain ⟨y, t, hy⟩ := List.exists_cons_of_ne_nil h0
        have hyY : y ∈ Y := List.mem_of_mem_take (by rw [hy]; simp)
        rw [t2]
        refine iter_dead g2.wf ne2 (by omega) hF (l := y.1) ?_ (by rw [t3, if_pos (by rw [hy]; simp)])
        rw [← entries_fst g2.wf, d4]
        simp only [List.map_append, List.mem_append]
        exact .inl (.inr (List.mem_map_of_mem hyY))

/-- Without a call of `next` nothing has happened but the cuts. -/
theorem C62_unused_partial [DecidableEq C] {B : Trait E C D} {A : Law B} {cont : E → List X} (K : ContentLaw B A.okE cont) {m : Fill} {h : Nat} {s : Tree E C}
    (hm : 1 ≤ m.lo ∧ m.lo + m.d ≤ 5) (hi : InvH A m h s) (hh : h ≤ 8) (hpos : ∀ x ∈ (abs s).es, 0 < B.rleLen x.2)
    {a b : Cursor} {Ua Va Ub Vb : List (Nat × E)} {ea eb : E}
    (ha : (abs s).es = Ua ++ (a.leaf, ea) :: Va) (hoa : a.offset ≤ B.rleLen ea)
    (hb : (abs s).es = Ub ++ (b.leaf, eb) :: Vb) (hob : b.offset ≤ B.rleLen eb)
    (hle : unitLen B Ua + a.offset ≤ unitLen B Ub + b.offset) (hend : unitLen B Ua + a.offset < unitLen B (abs s).es) (fa fb : Bool) :
    ∃ d h', drainNew B s (some ⟨a, fa⟩) (some ⟨b, fb⟩) = .ok d ∧ InvH A m h' d.tree ∧ h' ≤ h + 1 ∧ content cont (abs d.tree).es = content cont (abs s).es := by
  obtain ⟨d, Y, h', d1, d2, d3, d4, -⟩ := C62_leak K hm hi hh hpos ha hoa rfl hb hob rfl hle hend fa fb
  exact ⟨d, h', d1, d2, d3, d4⟩

theorem ropeSample_pos : ∀ x ∈ (abs ropeSample).es, 0 < ropeTrait.rleLen x.2 := by
  rw [ropeSample_spec.2]
  decide +kernel

/-- The sample rope of 30 chunks: a drain from inside chunk 3 to inside chunk 27 is asked for one element and leaked.  The tree passes `check`
and cannot be read. -/
theorem C62_leak_false : ∃ d d' out, drainNew ropeTrait ropeSample (some ⟨⟨3, 1⟩, true⟩) (some ⟨⟨27, 1⟩, true⟩) = .ok d ∧ drainTake 1 d = .ok (out, d') ∧
    check ropeTrait d'.tree = .ok () ∧ iter d'.tree = .error .panic := by
  obtain ⟨h, h7, hi⟩ := C18_height ropeSample_spec.1 (by decide) (by rw [ropeSample_spec.2]; decide)
  obtain ⟨d, Y, -, d1, -, -, -, d2, d3⟩ := C62_leak (ropeContent 4) (by decide) hi h7 ropeSample_pos
    (a := ⟨3, 1⟩) (b := ⟨27, 1⟩) (i := 10) (j := 82) (ropeSample_split 3 (by decide)) (by decide) (by decide) (ropeSample_split 27 (by decide)) (by decide) (by decide) (by decide)
    (by rw [ropeSample_spec.2]; decide +kernel) true true
  obtain ⟨d', e1, e2, e3⟩ := d3 1
  have hY : Y ≠ [] := by
    rintro rfl
    have := congrArg List.length d2
    rw [ropeSample_spec.2] at this
    revert this
    decide +kernel
  refine ⟨d, d', _, d1, e1, e2, ?_⟩
  rw [e3, if_neg]
  cases Y with
  | nil => exact absurd rfl hY
  | cons y Y => simp

example : ∃ d h', drainNew ropeTrait ropeSample (some ⟨⟨3, 1⟩, true⟩) (some ⟨⟨27, 1⟩, true⟩) = .ok d ∧ InvH (ropeLaw 4) 5 h' d.tree ∧
    content GapBuf.toVec (abs d.tree).es = content GapBuf.toVec (abs ropeSample).es := by
  obtain ⟨h, h7, hi⟩ := C18_height ropeSample_spec.1 (by decide) (by rw [ropeSample_spec.2]; decide)
  obtain ⟨d, h', d1, d2, -, d3⟩ := C62_unused_partial (ropeContent 4) (by decide) hi h7 ropeSample_pos
    (a := ⟨3, 1⟩) (b := ⟨27, 1⟩) (ropeSample_split 3 (by decide)) (by decide) (ropeSample_split 27 (by decide)) (by decide) (by decide)
    (by rw [ropeSample_spec.2]; decide +kernel) true true
  exact ⟨d, h', d1, d2, d3⟩

example := C62_leak (ropeContent 4) (by decide) ropeSample_two (by decide) ropeSample_pos (a := ⟨3, 1⟩) (b := ⟨27, 1⟩) (ropeSample_at (k := 3) (by decide)) (by decide) rfl
  (ropeSample_at (k := 27) (by decide)) (by decide) rfl (by decide) (by rw [ropeSample_es]; decide) true true

end GB

import Verif.Spec.CallLaws
import Verif.Props.C01
import Verif.Props.C02
import Verif.Props.C03
import Verif.Props.C04
import Verif.Props.C07
import Verif.Props.C08
import Verif.Props.C09
import Verif.Props.C11
import Verif.Props.C12
import Verif.Props.C14
import Verif.Props.C15
import Verif.Props.C17
import Verif.Props.C20
import Verif.Props.C22
import Verif.Props.C23
import Verif.Props.C24
import Verif.Props.C27
import Verif.Props.C41
import Verif.Props.C44
import Verif.Props.C49
import Verif.Props.C51
import Verif.Props.C06
import Verif.Props.C13
import Verif.Props.C52
import Verif.Props.C54
import Verif.Props.C75
import Verif.Props.C76
import Verif.Proof.SampleTwo

/-!
# Every call meets its postcondition
-/

namespace GB
variable {E C D X α R : Type} {B : Trait E C D}
open Tree

theorem Inv.fine {A : Law B} {m : Fill} {s : Tree E C} (hi : Inv A m s) : SeqFine A (abs s) := ⟨hi.nodup, hi.seqOK.lt, hi.okE⟩

/-- small sequences are stored in low trees -/
theorem Inv.low8 {A : Law B} {m : Fill} {s : Tree E C} (hi : Inv A m s) (hm : 1 ≤ m.lo ∧ m.lo + m.d = 5) (hn : Small (abs s)) : ∃ h, h ≤ 8 ∧ InvH A m h s := by
  obtain ⟨h, hi⟩ := hi
  refine ⟨h, ?_, hi⟩
  apply Decidable.byContradiction
  intro hh
  obtain ⟨lvl, g⟩ := hi.ex
  have h1 := height_bound_fill (m := ⟨1, 4⟩) g.wf (hi.sz.mono hm.1 (by show 1 + 4 ≤ m.lo + m.d; omega)) (by omega)
  rw [fillRow_five] at h1
  have h2 : 5 ^ 8 ≤ 5 ^ (h - 1) := Nat.pow_le_pow_right (by decide) (by omega)
  have : (5 : Nat) ^ 8 = 390625 := by decide
  have hn : (entries s).length < 390626 := hn
  omega

theorem InvH.levels {A : Law B} {m : Fill} {h : Nat} {s : Tree E C} (hi : InvH A m h s) (hm : 1 ≤ m.lo ∧ m.lo + m.d = 5) : Levels h (abs s).es.length := by
  obtain ⟨lvl, g⟩ := hi.ex
  refine ⟨g.wf.h_pos, ?_, fun h2 => ?_⟩
  · have h1 := rows_max g.wf hi.sz h (Nat.le_refl h)
    rw [row_order g.wf, List.length_map, ← entries_length g.wf] at h1
    exact h1
  · have h1 := height_bound_fill (m := ⟨1, 4⟩) g.wf (hi.sz.mono hm.1 (by show 1 + 4 ≤ m.lo + m.d; omega)) h2
    rw [fillRow_five] at h1
    exact h1

theorem map_write {U V : List (Nat × E)} {l : Nat} {e : E} (nd : ((U ++ (l, e) :: V).map Prod.fst).Nodup) (f : E → E) :
    (U ++ (l, e) :: V).map (fun y => if y.1 = l then (l, f y.2) else y) = U ++ (l, f e) :: V := by
  have hU : ∀ x ∈ U, x.1 ≠ l := by
    intro x hx e
    rw [List.map_append, List.nodup_append] at nd
    exact nd.2.2 x.1 (List.mem_map_of_mem hx) l (by simp) e
  have hV : ∀ x ∈ V, x.1 ≠ l := by
    intro x hx e
    rw [List.map_append, List.nodup_append, List.map_cons, List.nodup_cons] at nd
    have := List.mem_map_of_mem (f := Prod.fst) hx
    rw [e] at this
    exact nd.2.1.1 this
  rw [List.map_append, List.map_cons, if_pos rfl]
  congr 1
  · exact (List.map_congr_left fun x hx => if_neg (hU x hx)).trans (List.map_id U)
  · congr 1
    exact (List.map_congr_left fun x hx => if_neg (hV x hx)).trans (List.map_id V)

theorem map_no_write {U : List (Nat × E)} {l : Nat} (h : l ∉ U.map Prod.fst) (f : E → E) :
    U.map (fun y => if y.1 = l then (l, f y.2) else y) = U :=
  (List.map_congr_left fun x hx => if_neg (fun e : x.1 = l => h (e ▸ List.mem_map_of_mem (f := Prod.fst) hx))).trans (List.map_id U)

theorem reading_ok {s : Tree E C} {x : M α} {a : α} (h : x = .ok a) : reading s x = .ok (a, s) := by rw [h]; rfl

theorem call_step {A : Law B} {Rd : C → D → C → Prop} {cont : E → List X} (K : ContentLaw B A.okE cont) {m : Fill} (hm : 1 ≤ m.lo ∧ m.lo + m.d = 5)
    (hE : 2 ≤ m.lo ∨ LawE A) (L : DiffLaw A Rd) {ho : HashOrd E} (hho : ∀ l, (ho.idx l).Perm l) (hcur : ∀ l, (ho.cur l).Perm l) (hgrp : ∀ l, (ho.grp l).Perm l)
    {dr : Prop} (hdr : dr → m.lo = 1)
    {s : Tree E C} (hi : Inv A m s) {c : Call E C D α} (hv : c.pre A Rd dr (abs s)) :
    ∃ x s', c.run B ho s = .ok (x, s') ∧ Inv A m s' ∧ c.post A cont (abs s) x (abs s') := by
  have hsl := K.splitLen
  have nd : ((abs s).es.map Prod.fst).Nodup := hi.nodup
  have h5 : 1 ≤ m.lo ∧ m.lo + m.d ≤ 5 := ⟨hm.1, by omega⟩
  have h6 : 1 ≤ m.lo ∧ m.lo + m.d ≤ 6 := ⟨hm.1, by omega⟩
  cases c with
  | push e => exact C01_push h6 hi hv
  | prepend e => exact C02_prepend_partial h6 hi hv.2 hv.1
  | insertAt c e =>
    obtain ⟨he, x, hx, hoff⟩ := hv
    obtain ⟨c', sp, s', h1, h2, h3⟩ := C03_insert_by_path h6 hi hx hoff (.inl h5.2) he
    exact ⟨(c', sp), s', h1, h2, h3⟩
  | insertMany c data =>
    obtain ⟨hok, e, he, hoff⟩ := hv
    obtain ⟨U, V, hes⟩ := List.append_of_mem he
    have hpos : posOf B (abs s) ⟨c.leaf, 0⟩ = some (unitLen B U) := by rw [posOf, show locate (Cursor.mk c.leaf 0).leaf (abs s).es = _ from locate_split nd hes]; rfl
    by_cases hne : data = []
    · subst hne
      refine ⟨(), s, rfl, hi, unitLen B U, [], [], hpos, by simp, by simp [splice], fun _ h => h⟩
    · obtain ⟨data', s', took, rest, h1, h2, h3, h4, -, h6, h7⟩ := C24_exact K h5 hi hes hoff hok hne
      obtain ⟨r, g1, -, g2⟩ := C25_content_perm A K hne hok
      rw [h1] at g1
      cases g1
      refine ⟨(), s', by simp only [Call.run, h2, bind_ok, pure_ok], h3, unitLen B U, _, _, hpos, ?_, h6, h7⟩
      rw [← List.flatMap_append, ← h4]
      exact g2
  | remove c => exact C04_remove_any c h6 hE hi
  | clear => exact ⟨(), _, rfl, (C27_clear A m s).2.2.2.2, (C27_clear A m s).2.1⟩
  | drain a b k =>
    obtain ⟨hlo, hsm, ⟨Ua, ea, Va, Ub, eb, Vb, ha, hoa, hb, hob, hle, hend⟩, hz⟩ := hv
    obtain ⟨h, hh, hi'⟩ := hi.low8 hm hsm
    obtain ⟨Y, s', h', d1, d2, d3, -⟩ := C69_drain_partial h5 hi' hsl ha hoa hb hob hle hz hend true true k (.inl hh)
    rw [Fill.drained_self (hdr hlo)] at d3
    exact ⟨_, s', by simp only [Call.run, d1, bind_ok, pure_ok], ⟨h', d3⟩, Y, d2, rfl⟩
  | update f st a b =>
    obtain ⟨hsm, ⟨Ua, ea, Va, Ub, eb, Vb, ha, hoa, hb, hob, hle, -⟩, hf⟩ := hv
    obtain ⟨h, hh, hi'⟩ := hi.low8 hm hsm
    obtain ⟨st', s', h', u1, u2, u3, -, u4⟩ := C69_update L h5 hE hi' hsl hho hf st ha hoa hb hob hle (.inl hh)
    exact ⟨(st', _), s', by simp only [Call.run, u1, bind_ok, pure_ok], ⟨h', u3⟩, u2, u4, rfl⟩
  | updateLeaf l f =>
    obtain ⟨e, e1, need, n1, n2, hl, hf, ok1, okn1, okn2, hneed, hrem⟩ := hv
    obtain ⟨U, V, hes⟩ := List.append_of_mem hl
    obtain ⟨b, ids, s', h1, h2, h3⟩ := C20_update_leaf h5 hi hes hf ok1 okn1 okn2 hneed hrem
    exact ⟨(b, ids), s', by simp only [Call.run, h1, bind_ok, pure_ok], h2, U, e, V, e1, need, n1, n2, hes, hf, h3⟩
  | ranges f st args =>
    obtain ⟨hsub, hf, hargs⟩ := hv
    obtain ⟨st', new, s', out, blk, u1, u2, u3, u4, u5, u6, u7, u8⟩ := C23_update_ranges_partial L hsub h6 hi hsl hho hcur hgrp hf st hargs
    exact ⟨(st', new), s', by simp only [Call.run, u1, bind_ok, pure_ok], u2, _, out, blk, hgrp _, u3, u4, u5, u6, u7, u8⟩
  | bySearch getLen i f =>
    obtain ⟨LL, hsm, hne, hf⟩ := hv
    obtain ⟨h, hh, hi'⟩ := hi.low8 hm hsm
    obtain ⟨U, l, e, V, o, k1, k2, k3, k4, k5, k6⟩ := C09_query_len LL hm.1 hi hne i
    have fa : FoundAt B (abs s) i U ⟨l, o⟩ e V := ⟨k1, k3, k4, k5, k6⟩
    obtain ⟨fnd, g1, g2, g3⟩ := C22_search hm.1 hi' (by omega) k2 k1
    have g1 : i < unitLen B (abs s).es → fnd = true := fun h => g1 (decide_eq_true h)
    rcases hf U _ e V fnd fa g1 with ⟨e1, d, n1, q1, q2, q3, q4, q5⟩ | ⟨e1, q1, q2, q3⟩
    · obtain ⟨cur, ids, s', u1, u2, u3⟩ := g2 h5.2 f e1 d n1 q1 q2 q3 q4 q5
      exact ⟨(cur, ids), s', by simp only [Call.run, u1, bind_ok, pure_ok], u2, U, _, e, V, fnd, fa, g1, .inl ⟨e1, d, n1, q1, u3⟩⟩
    · obtain ⟨s', u1, u2, u3⟩ := g3 f e1 q1 q2 q3
      exact ⟨(some ⟨l, o⟩, []), s', by simp only [Call.run, u1, bind_ok, pure_ok], ⟨h, u2⟩, U, _, e, V, fnd, fa, g1, .inr ⟨e1, q1, rfl, u3⟩⟩
  | write l f =>
    obtain ⟨w1, w2⟩ := C51_get_elem_mut hi l f
    by_cases hl : l ∈ (abs s).es.map Prod.fst
    · obtain ⟨⟨l', e⟩, hle, rfl⟩ := List.mem_map.mp hl
      obtain ⟨U, V, hes⟩ := List.append_of_mem hle
      obtain ⟨s', w3, w4, -⟩ := w2 U e V hes
      have w5 := C51_same_cache hi ((getElem_entries hi).mpr hle) (hv e hle).1 (hv e hle).2
      rw [w3] at w5
      refine ⟨some e, s', by simp only [Call.run, w3]; rfl, w5, ?_, ?_⟩
      · rw [show locate (l', e).1 (abs s).es = _ from locate_split nd hes]; rfl
      · rw [w4, hes, map_write (by rw [← hes]; exact nd)]
    · refine ⟨none, s, by simp only [Call.run, w1 hl]; rfl, hi, ?_, ?_⟩
      · rw [locate_none.mpr hl]; rfl
      · rw [map_no_write hl]
  | get l =>
    refine ⟨getElem s l, s, rfl, hi, ?_, rfl⟩
    cases hg : getElem s l with
    | none =>
      rw [locate_none.mpr]
      · rfl
      · intro hl
        obtain ⟨⟨l', e⟩, hle, rfl⟩ := List.mem_map.mp hl
        rw [(getElem_entries hi).mpr hle] at hg
        cases hg
    | some e =>
      obtain ⟨U, V, hes⟩ := List.append_of_mem ((getElem_entries hi).mp hg)
      rw [locate_split nd hes]; rfl
  | find getLen i =>
    by_cases hne : (abs s).es = []
    · exact ⟨none, s, reading_ok ((C44_empty hm.1 hi).2 hne (lenQuery B getLen) i i).1, hi, rfl, fun _ => rfl, fun h => absurd hne h⟩
    · obtain ⟨U, l, e, V, o, k1, k2, k3, k4, k5, k6⟩ := C09_query_len hv hm.1 hi hne i
      exact ⟨_, s, reading_ok k2, hi, rfl, fun h => absurd h hne, fun _ => ⟨U, ⟨l, o⟩, e, V, ⟨k1, k3, k4, k5, k6⟩, rfl⟩⟩
  | iter =>
    obtain ⟨h, hh, hi'⟩ := hi.low8 hm hv
    exact ⟨_, s, reading_ok (C08_iter hm.1 hi' (by omega)), hi, rfl, rfl⟩
  | iterRange a b incl =>
    obtain ⟨hsm, U, M, e, V, hes, hs⟩ := hv
    obtain ⟨h, hh, hi'⟩ := hi.low8 hm hsm
    refine ⟨_, s, reading_ok (C16_iter_range hm.1 hi' (by omega) hes hs), hi, rfl, fun U' M' e' V' hes' hs' => ?_⟩
    have h1 := C16_iter_range (incl := incl) hm.1 hi' (by omega) hes hs
    have h2 := C16_iter_range (incl := incl) hm.1 hi' (by omega) hes' hs'
    rw [h1] at h2
    exact Except.ok.inj h2
  | filter zero add f => exact ⟨_, s, reading_ok (C41_sound_filter hm.1 hi hv zero), hi, rfl, rfl⟩
  | rootCache => exact ⟨_, s, rfl, hi, C07_root_cache hm.1 hi hv, rfl⟩
  | isEmpty =>
    refine ⟨_, s, reading_ok (C44_empty (Q := Unit) (F := Unit) hm.1 hi).1, hi, ?_, rfl⟩
    cases (abs s).es <;> simp
  | firstLeaf => exact ⟨_, s, reading_ok (C17_ends hm.1 hi).1, hi, rfl, rfl⟩
  | lastLeaf => exact ⟨_, s, reading_ok (C17_ends hm.1 hi).2.1, hi, rfl, rfl⟩
  | startCursor => exact ⟨_, s, reading_ok (C17_ends (B := B) hm.1 hi).2.2.1, hi, rfl, rfl⟩
  | endCursor => exact ⟨_, s, reading_ok (C17_ends hm.1 hi).2.2.2.1, hi, rfl, rfl⟩
  | next c =>
    obtain ⟨e, he⟩ := hv
    obtain ⟨U, V, hes⟩ := List.append_of_mem he
    exact ⟨_, s, reading_ok (C11_next_elem hm.1 hi hes).1, hi, rfl, by rw [locate_split nd hes]; rfl⟩
  | prev c =>
    obtain ⟨e, he⟩ := hv
    obtain ⟨U, V, hes⟩ := List.append_of_mem he
    exact ⟨_, s, reading_ok (C11_prev_elem hm.1 hi hes).1, hi, rfl, by rw [locate_split nd hes]; rfl⟩
  | preferLeft c =>
    obtain ⟨e, he⟩ := hv
    obtain ⟨U, V, hes⟩ := List.append_of_mem he
    obtain ⟨r, h1, h2, h3⟩ := C12_prefer_left hm.1 hi hes
    refine ⟨r, s, reading_ok h1, hi, rfl, h2.trans ⟨fun h => ⟨h.1, e, V, by rw [hes, h.2]; rfl⟩, fun ⟨h, e', V', h'⟩ => ⟨h, ?_⟩⟩, h3⟩
    have h4 := locate_split (U := []) nd h'
    rw [locate_split nd hes] at h4
    cases h4
    rfl
  | preferRight c =>
    obtain ⟨e, he, hoff⟩ := hv
    obtain ⟨U, V, hes⟩ := List.append_of_mem he
    obtain ⟨r, h1, h2, h3⟩ := C12_prefer_right hm.1 hi hes hoff
    refine ⟨r, s, reading_ok h1, hi, rfl, h2.trans ⟨fun h => ⟨h.1, U, e, by rw [hes, h.2.2], h.2.1⟩, fun ⟨h, U', e', h', h''⟩ => ⟨h, ?_⟩⟩, h3⟩
    have h4 := locate_split nd h'
    rw [locate_split nd hes] at h4
    cases h4
    exact ⟨h'', rfl⟩
  | compare a b =>
    obtain ⟨⟨ea, ha⟩, eb, hb⟩ := hv
    obtain ⟨U, V, h1⟩ := List.append_of_mem ha
    obtain ⟨U', V', h2⟩ := List.append_of_mem hb
    refine ⟨_, s, reading_ok (C14_compare_pos hi h1 h2), hi, rfl, fun W ea' Z W' eb' Z' h3 h4 => ?_⟩
    have h3 := locate_split nd h3
    have h4 := locate_split nd h4
    rw [locate_split nd h1] at h3
    rw [locate_split nd h2] at h4
    cases h3
    cases h4
    rfl
  | visit c =>
    obtain ⟨hsm, e, he⟩ := hv
    obtain ⟨h, hh, hi'⟩ := hi.low8 hm hsm
    obtain ⟨U, V, hes⟩ := List.append_of_mem he
    obtain ⟨cs, h1, h2⟩ := C15_visit hm.1 hi' (by omega) hes
    exact ⟨_, s, reading_ok h1, hi, rfl, U, e, V, hes, rfl, h2⟩
  | search q arg =>
    by_cases hne : (abs s).es = []
    · exact ⟨_, s, reading_ok (C75_empty hm.1 hi hne q arg), hi, rfl, fun _ => rfl, fun _ _ _ h => absurd hne h⟩
    · obtain ⟨hit, Rep, exact, FL, hc⟩ := hv hne
      obtain ⟨U, l, e, W, fd, found, h1, h2, h3, -, h4, -⟩ := C75_finder hm.1 hi hne FL
      obtain ⟨r, hr⟩ := hc (U.map Prod.snd) e (W.map Prod.snd) fd (by rw [h1]; simp) h2 h3
      rw [hr] at h4
      refine ⟨_, s, reading_ok h4, hi, rfl, fun h => absurd h hne, fun hit' Rep' exact' _ FL' => ?_⟩
      obtain ⟨U', l', e', W', fd', found', k1, k2, k3, k4, k5, -⟩ := C75_finder hm.1 hi hne FL'
      rw [h4] at k5
      cases hr' : q.confirm fd' arg e' with
      | error err => rw [hr'] at k5; cases k5
      | ok r' =>
        rw [hr'] at k5
        exact ⟨U', l', e', W', fd', found', r', k1, k2, k3, k4, hr', Except.ok.inj k5⟩
  | shift c =>
    obtain ⟨e, he, hoff⟩ := hv
    obtain ⟨U, V, hes⟩ := List.append_of_mem he
    obtain ⟨r, h1, h2, h3⟩ := C13_shift_partial hm.1 hi hes hoff
    exact ⟨r, s, reading_ok h1, hi, rfl, _, posOf_split hi hes, h2, h3⟩
  | check inst =>
    obtain ⟨h, hh, hi'⟩ := hi.low8 hm hv.1
    exact ⟨(), s, reading_ok ((@C06_check_iff E C D inst B A m s h hm.1 hi' (by omega)).mpr fun h => absurd h hv.2), hi, rfl⟩
  | depth =>
    obtain ⟨h, hi'⟩ := id hi
    exact ⟨h, s, reading_ok (C54_depth hm.1 hi' hv), hi, rfl, hi'.levels hm⟩
  | nodeLen =>
    obtain ⟨h, hi'⟩ := id hi
    have h1 := C52_children (sum := _) (n := _) hi rfl
    have h2 : InvH A ⟨1, 4⟩ h s := ⟨hi'.ex, hi'.sz.mono hm.1 (by show 1 + 4 ≤ m.lo + m.d; omega)⟩
    exact ⟨GB.nodeLen s, s, rfl, hi, rfl, by omega, h, hi'.levels hm, inv_space h2⟩
  | filterSt zero add f st k =>
    obtain ⟨items, h1, h2⟩ := C76_subsequence hi zero add f st
    obtain ⟨it, h3⟩ := h2 k
    refine ⟨((List.range k).map fun i => items[i]?, it.st), s, reading_ok (by simp only [h3, bind_ok, pure_ok]), hi, rfl, by simp, items, h1, rfl⟩

theorem prog_run {A : Law B} {Rd : C → D → C → Prop} {cont : E → List X} (K : ContentLaw B A.okE cont) {m : Fill} (hm : 1 ≤ m.lo ∧ m.lo + m.d = 5)
    (hE : 2 ≤ m.lo ∨ LawE A) (L : DiffLaw A Rd) {ho : HashOrd E} (hho : ∀ l, (ho.idx l).Perm l) (hcur : ∀ l, (ho.cur l).Perm l) (hgrp : ∀ l, (ho.grp l).Perm l)
    {dr : Prop} (hdr : dr → m.lo = 1) {Q : R → Seq E → Prop} (p : Prog E C D R) : ∀ {s : Tree E C}, Inv A m s → p.wp A Rd cont dr Q (abs s) →
    ∃ r s', p.run B ho s = .ok (r, s') ∧ Inv A m s' ∧ Q r (abs s') := by
  induction p with
  | ret r => intro s hi hw; exact ⟨r, s, rfl, hi, hw⟩
  | call c k ih =>
    intro s hi hw
    obtain ⟨x, s1, h1, h2, h3⟩ := call_step K hm hE L hho hcur hgrp hdr hi hw.1
    obtain ⟨r, s2, h4, h5, h6⟩ := ih x h2 (hw.2 x _ h3 h2.fine)
    exact ⟨r, s2, by simp only [Prog.run, h1, bind_ok, h4], h5, h6⟩

end GB

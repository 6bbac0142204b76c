import Verif.Proof.RopeIns
import Verif.Props.C04
import Verif.Proof.SearchCap

/-!
# The rope: `delete_range`
-/

namespace GB
open Tree

variable {cap : Nat} {m : Fill} {r : Rope}

theorem Inv.mono {E C D : Type} {B : Trait E C D} {A : Law B} {m m' : Fill} {s : Tree E C} (hi : Inv A m s) (h : m'.lo ≤ m.lo ∧ m'.lo + m'.d ≤ m.lo + m.d) : Inv A m' s := by
  obtain ⟨k, ⟨lvl, g⟩, sz⟩ := hi
  exact ⟨k, ⟨lvl, g⟩, Sz.mono sz h.1 h.2⟩

theorem RopeInv.mono {m' : Fill} (ri : RopeInv cap m r) (h : m'.lo ≤ m.lo ∧ m'.lo + m'.d ≤ m.lo + m.d) : RopeInv cap m' r := ⟨ri.inv.mono h, ri.pos, ri.cur⟩

/-- the bytes of a list of chunks, cut around one chunk -/
theorem text_cut {U V : List (Nat × GapBuf)} {l : Nat} {e : GapBuf} (hok : ∀ x ∈ U ++ (l, e) :: V, x.2.WF ∧ x.2.capacity = cap) {i j start stop : Nat}
    (hi : unitLen ropeTrait U + i = start) (hj : unitLen ropeTrait U + j = stop) (hij : i ≤ j) (hje : j ≤ e.len) :
    (content GapBuf.toVec (U ++ (l, e) :: V)).take start ++ (content GapBuf.toVec (U ++ (l, e) :: V)).drop stop =
      content GapBuf.toVec U ++ (e.toVec.take i ++ e.toVec.drop j) ++ content GapBuf.toVec V := by
  have hUl : (content GapBuf.toVec U).length = unitLen ropeTrait U :=
    content_length (ropeContent cap) (fun x hx => hok x (by simp [hx]))
  have hel : e.toVec.length = e.len := GapBuf.toVec_length e (hok (l, e) (by simp)).1
  simp only [content_append, content_cons]
  rw [List.take_append, List.drop_append, hUl, List.take_of_length_le (l := content GapBuf.toVec U) (by omega),
    List.drop_of_length_le (l := content GapBuf.toVec U) (by omega), show start - unitLen ropeTrait U = i by omega,
    show stop - unitLen ropeTrait U = j by omega, List.take_append_of_le_length (by omega), List.drop_append_of_le_length (by omega)]
  simp

/-- deleting one byte by search -/
theorem deleteOne_spec (hm : 1 ≤ m.lo ∧ m.lo + m.d ≤ 5) (ri : RopeInv cap m r) {h : Nat} (hi : InvH (ropeLaw cap) m h r.tree) {start : Nat}
    (hlt : start < r.text.length)
    (hh : h ≤ 10 ∨ updateLeafBySearch ropeTrait ropeQuery r.tree start (fun e pos => do
        let g ← e.delete pos.cursor.offset (pos.cursor.offset + 1)
        pure (g, some (-1, none, none))) ≠ .error .panic) :
    ∃ c ids t, updateLeafBySearch ropeTrait ropeQuery r.tree start (fun e pos => do
        let g ← e.delete pos.cursor.offset (pos.cursor.offset + 1)
        pure (g, some (-1, none, none))) = .ok (c, ids, t) ∧ (∀ c', c = some c' → c'.offset ≤ start) ∧
      RopeInv cap m ⟨t, c.map fun c' => ⟨start - c'.offset, c'.leaf⟩⟩ ∧
      (⟨t, none⟩ : Rope).text = r.text.take start ++ r.text.drop (start + 1) := by
  have hlt' := hlt
  rw [ri.text_length] at hlt'
  have hes0 : (abs r.tree).es ≠ [] := by intro h; rw [h] at hlt'; simp at hlt'
  obtain ⟨U, l, e, V, o, h1, h2, h3, h4, h5, h6⟩ := C09_query_len (ropeLenLaw cap) hm.1 ri.inv hes0 start
  have h4 : o < e.len := h4 hlt'
  have hok := ri.okE (l, e) (by rw [h1]; simp)
  have hh : h ≤ 10 := by
    rcases hh with hh | hh
    · exact hh
    · apply Decidable.byContradiction
      intro h11
      obtain ⟨lvl, g⟩ := hi.ex
      exact hh (updateLeafBySearch_full g.wf (by omega) h2 _)
  obtain ⟨fnd, -, hs⟩ := C22_update_leaf_by_search hm hi hh h2 h1
  obtain ⟨g, k1, k2, k3, k4⟩ := GapBuf.delete_spec e hok.1 o (o + 1)
  have hel : e.toVec.length = e.len := GapBuf.toVec_length e hok.1
  have hgl : g.len = e.len - 1 := by
    rw [← GapBuf.toVec_length g k2, k4, List.length_append, List.length_take, List.length_drop]; omega
  have hcr : ropeTrait.canRemove g = decide (g.len = 0) := rfl
  have hex : Exact (ropeLaw cap) (ropeTrait.elemCache e) (-1) ((searchResults ropeTrait g none).map ropeTrait.elemCache) := by
    have : (-1 : Int) = ((searchResults ropeTrait g none).map ropeTrait.elemCache).sum - ropeTrait.elemCache e := by
      unfold searchResults
      rw [hcr]
      by_cases h0 : g.len = 0
      · simp only [h0, decide_true, if_true, List.map_nil, List.sum_nil, ropeTrait]
        omega
      · simp only [h0, decide_false, Bool.false_eq_true, if_false, ropeTrait]
        simp
        omega
    rw [this]
    exact rope_exact cap _ _
  obtain ⟨cur, ids, t, s1, s2, s3⟩ := hs (fun e pos => do
        let g ← e.delete pos.cursor.offset (pos.cursor.offset + 1)
        pure (g, some (-1, none, none))) g (-1) none (by simp only [k1, bind_ok, pure_ok]) ⟨k2, by rw [k3, hok.2]⟩ (by intro a h; cases h)
        (fun _ => ⟨rfl, ropeLawE cap⟩) hex
  have hcut := text_cut (by rw [← h1]; exact ri.okE) (show _ + o = start from h3) (show unitLen ropeTrait U + (o + 1) = start + 1 by omega) (by omega) (show o + 1 ≤ e.len by omega)
  rw [← h1] at hcut
  have hcut : r.text.take start ++ r.text.drop (start + 1) = _ := hcut
  rw [show min o (o + 1) = o by omega] at k4
  rw [hcut, ← k4]
  have hU : ∀ x ∈ U, 0 < x.2.len := fun x hx => ri.pos x (by rw [h1]; simp [hx])
  have hV : ∀ x ∈ V, 0 < x.2.len := fun x hx => ri.pos x (by rw [h1]; simp [hx])
  refine ⟨cur, ids, t, s1, ?_, ⟨s2, ?_, ?_⟩, ?_⟩
  all_goals (
    try show _
    try simp only [Rope.text]
    generalize (abs t).es = es' at s3 ⊢
    generalize (abs t).next = nx at s3
    unfold searchResults at s3
    rw [hcr] at s3
    by_cases h0 : g.len = 0
    · simp only [h0, decide_true, if_true] at s3
      cases s3
      first
      | (intro c' hc; cases hc; done)
      | (intro x hx; exact (List.mem_append.mp hx).elim (hU x) (hV x))
      | (rw [content_append, (toVec_nil k2).mpr h0]; simp)
    · simp only [h0, decide_false, Bool.false_eq_true, if_false] at s3
      cases s3
      first
      | (intro c' hc; cases hc; show o ≤ start; omega)
      | (intro c' hc
         cases hc
         exact ⟨U, g, V, rfl, by show unitLen ropeTrait U = start - o; omega⟩)
      | (intro x hx
         simp only [List.mem_append, List.mem_cons] at hx
         rcases hx with hx | rfl | hx
         · exact hU x hx
         · show 0 < g.len
           omega
         · exact hV x hx)
      | (simp only [content_append, content_cons]; simp))

/-- the rest of `delete_range`: two or more bytes, without the cached cursor -/
theorem deleteSlow_spec (hm : 1 ≤ m.lo ∧ m.lo + m.d ≤ 5) (ri : RopeInv cap m r) {h : Nat} (hi : InvH (ropeLaw cap) m h r.tree) {start stop : Nat}
    (hlt : start < stop) (hle : stop ≤ r.text.length)
    (hh : h ≤ 8 ∨ ∀ a b, query ropeQuery r.tree start = .ok (some a) → query ropeQuery r.tree stop = .ok (some b) → a.cursor.leaf ≠ b.cursor.leaf →
      (do let d ← drainNew ropeTrait r.tree (some a) (some b)
          let (_, t) ← drainDrop ropeTrait d
          pure ⟨t, none⟩ : M Rope) ≠ .error .panic) :
    ∃ a b, query ropeQuery r.tree start = .ok (some a) ∧ query ropeQuery r.tree stop = .ok (some b) ∧
      ∃ r' : Rope, (if a.cursor.leaf = b.cursor.leaf then do
              let leaf ← r.tree.getLf a.cursor.leaf
              if a.cursor.offset = 0 ∧ b.cursor.offset = leaf.elem.len then do
                let (_, t) ← removeLeaf ropeTrait r.tree a.cursor
                pure ⟨t, none⟩
              else do
                let g ← leaf.elem.delete a.cursor.offset b.cursor.offset
                let t := r.tree.setLf a.cursor.leaf { leaf with elem := g }
                let t ← recursiveUpdateCache ropeTrait t (.leaf a.cursor.leaf) true
                  (some ((start : Int) - (stop : Int)))
                pure ⟨t, none⟩
            else do
              let d ← drainNew ropeTrait r.tree (some a) (some b)
              let (_, t) ← drainDrop ropeTrait d
              pure ⟨t, none⟩) = (.ok r' : M Rope) ∧ RopeInv cap m.drained r' ∧ r'.text = r.text.take start ++ r.text.drop stop := by
  rw [ri.text_length] at hle
  have hes0 : (abs r.tree).es ≠ [] := by intro h; rw [h] at hle; simp at hle; omega
  obtain ⟨Ua, la, ea, Va, oa, a1, a2, a3, a4, a5, a6⟩ := C09_query_len (ropeLenLaw cap) hm.1 ri.inv hes0 start
  obtain ⟨Ub, lb, eb, Vb, ob, b1, b2, b3, b4, b5, b6⟩ := C09_query_len (ropeLenLaw cap) hm.1 ri.inv hes0 stop
  have hoa : oa < ea.len := a4 (by omega)
  have hob : ob ≤ eb.len := by
    rcases Nat.lt_or_ge stop (unitLen ropeTrait (abs r.tree).es) with h | h
    · exact Nat.le_of_lt (b4 h)
    · exact Nat.le_of_eq (b6 (by omega))
  refine ⟨_, _, a2, b2, ?_⟩
  simp only
  by_cases hab : la = lb
  · subst hab
    have q1 := locate_split ri.inv.nodup a1
    have q2 := locate_split ri.inv.nodup b1
    rw [q1] at q2
    cases q2
    rw [if_pos rfl]
    have hok := ri.okE (la, ea) (by rw [a1]; simp)
    have hU : ∀ x ∈ Ua, 0 < x.2.len := fun x hx => ri.pos x (by rw [a1]; simp [hx])
    have hV : ∀ x ∈ Va, 0 < x.2.len := fun x hx => ri.pos x (by rw [a1]; simp [hx])
    have hcut := text_cut (by rw [← a1]; exact ri.okE) (show _ + oa = start from a3) (show _ + ob = stop from b3) (by omega) hob
    rw [← a1] at hcut
    have hcut : r.text.take start ++ r.text.drop stop = _ := hcut
    rw [hcut]
    have hel : ea.toVec.length = ea.len := GapBuf.toVec_length ea hok.1
    obtain ⟨⟨lvl, g⟩, sz⟩ := id hi
    have hea := (entries_mem g.wf).mp (show (la, ea) ∈ entries r.tree by rw [show entries r.tree = _ from a1]; simp)
    obtain ⟨q, hq⟩ : ∃ q, r.tree.lf.get la = some ⟨ea, q⟩ := by
      unfold elm at hea
      cases hL : r.tree.lf.get la with
      | none => rw [hL] at hea; cases hea
      | some L => rw [hL] at hea; cases hea; exact ⟨L.parent, rfl⟩
    simp only [getLf_ok hq, bind_ok]
    split
    · next hc =>
      obtain ⟨t, k1, k2, k3⟩ := C04_remove_leaf (B := ropeTrait) (cur := ⟨la, oa⟩) ⟨hm.1, by omega⟩ (Or.inr (ropeLawE cap)) ri.inv a1
      refine ⟨⟨t, none⟩, ?_, ⟨k2.mono (Fill.drained_le hm.1), ?_, by intro c hc; cases hc⟩, ?_⟩
      · simp only [k1, bind_ok, pure_ok]
      · intro x hx
        simp only [k3] at hx
        exact (List.mem_append.mp hx).elim (hU x) (hV x)
      · simp only [Rope.text, k3, content_append, hc.1, hc.2]
        rw [List.drop_of_length_le (by omega)]
        simp
    · next hc =>
      obtain ⟨g', k1, k2, k3, k4⟩ := GapBuf.delete_spec ea hok.1 oa ob
      rw [show min oa ob = oa by omega] at k4
      have hgl : g'.len = ea.len - (ob - oa) := by
        rw [← GapBuf.toVec_length g' k2, k4, List.length_append, List.length_take, List.length_drop]; omega
      obtain ⟨t, u1, u2, u3, u4, u5⟩ := Good.upd g hq (e' := g') ⟨k2, by rw [k3, hok.2]⟩ (some ((start : Int) - (stop : Int))) (by
        intro d _ hd
        cases hd
        show (g'.len : Int) = (ea.len : Int) + ((start : Int) - (stop : Int))
        omega)
      have hent : (abs t).es = Ua ++ (la, g') :: Va := entries_upd (e := ea) g.wf u3.order u4 a1
      refine ⟨⟨t, none⟩, ?_, ⟨⟨h, ⟨lvl, u2⟩, SzX.congr u3 (Sz.mono sz (Fill.drained_le hm.1).1 (Fill.drained_le hm.1).2)⟩, ?_, by intro c hc; cases hc⟩, ?_⟩
      · simp only [k1, bind_ok]
        have u1 : recursiveUpdateCache ropeTrait (r.tree.setLf la ⟨g', q⟩) (.leaf la) true (some ((start : Int) - (stop : Int))) = .ok t := u1
        simp only [u1, bind_ok, pure_ok]
      · intro x hx
        simp only [hent, List.mem_append, List.mem_cons] at hx
        rcases hx with hx | rfl | hx
        · exact hU x hx
        · show 0 < g'.len
          simp only [not_and] at hc
          omega
        · exact hV x hx
      · simp only [Rope.text, hent, content_append, content_cons, k4]
        simp
  · rw [if_neg hab]
    obtain ⟨Y, s', h', d1, d2, -, -, d5, d6, -⟩ := C18_drain_content (ropeContent cap) hm hi ri.pos (a := ⟨la, oa⟩) (b := ⟨lb, ob⟩) a1
      (Nat.le_of_lt hoa) a3 b1 hob b3 (by omega) (by omega) (decide (start < unitLen ropeTrait (abs r.tree).es)) (decide (stop < unitLen ropeTrait (abs r.tree).es)) 0 (hh.imp id fun hh hp => hh _ _ a2 b2 hab (by
        rw [drain] at hp
        simp only [drainTake, bind_ok] at hp
        rcases bind_panic hp with hp | ⟨d, hd, hp⟩
        · simp only [hp]; rfl
        · simp only [hd, bind_ok]
          rcases bind_panic hp with hp | ⟨x, hd, hp⟩
          · simp only [hp]; rfl
          · cases hp))
    rw [drain] at d1
    obtain ⟨d, e1, d1⟩ := bind_inv d1
    simp only [drainTake, bind_ok] at d1
    obtain ⟨⟨rest, s''⟩, e2, d1⟩ := bind_inv d1
    cases d1
    refine ⟨⟨s'', none⟩, ?_, ⟨⟨h', d2⟩, d6, by intro c hc; cases hc⟩, d5⟩
    simp only [e1, bind_ok, e2, pure_ok]

/-- `Rope::delete_range` removes the bytes `start..stop` (clamped), on trees of at most 8 levels or if it does not panic -/
theorem ropeDelete_spec (hm : 1 ≤ m.lo ∧ m.lo + m.d ≤ 5) (ri : RopeInv cap m r) {h : Nat} (hi : InvH (ropeLaw cap) m h r.tree) (start stop : Nat)
    (hh : h ≤ 8 ∨ Rope.deleteRange r start stop ≠ .error .panic) :
    ∃ r', Rope.deleteRange r start stop = .ok r' ∧ RopeInv cap (if stop ≤ start + 1 then m else m.drained) r' ∧
      r'.text = r.text.take start ++ r.text.drop (max start stop) := by
  have hm1 : (if stop ≤ start + 1 then m else m.drained).lo ≤ m.lo ∧
      (if stop ≤ start + 1 then m else m.drained).lo + (if stop ≤ start + 1 then m else m.drained).d ≤ m.lo + m.d := by
    split
    · exact ⟨Nat.le_refl _, Nat.le_refl _⟩
    · exact Fill.drained_le hm.1
  have same : ∀ a b, a = b ∨ r.text.length ≤ a ∧ a ≤ b → r.text = r.text.take a ++ r.text.drop b := by
    intro a b hab
    rcases hab with rfl | ⟨h1, h2⟩
    · simp
    · rw [List.take_of_length_le h1, List.drop_of_length_le (by omega)]; simp
  unfold Rope.deleteRange at hh ⊢
  rw [ri.isEmpty hm.1] at hh ⊢
  by_cases hne : r.text = []
  · simp only [hne, decide_true, if_true]
    exact ⟨r, rfl, ri.mono hm1, by simp [hne]⟩
  · simp only [hne, decide_false, Bool.false_eq_true, if_false, ri.len hm.1] at hh ⊢
    generalize hS : min stop r.text.length = stop' at hh ⊢
    generalize hs : min start stop' = start' at hh ⊢
    split
    · next heq =>
      refine ⟨r, rfl, ri.mono hm1, same _ _ ?_⟩
      omega
    · next hlt =>
      rw [if_neg hlt] at hh
      have hlt : start' < stop' := by omega
      have e1 : start' = start := by omega
      have e2 : r.text.drop (max start stop) = r.text.drop stop' := by
        rw [show max start stop = stop by omega]
        rcases Nat.le_total stop r.text.length with h | h
        · rw [show stop' = stop by omega]
        · rw [List.drop_of_length_le h, List.drop_of_length_le (by omega)]
      rw [e2]
      subst e1
      rcases deleteFast_spec hm ri hlt with hf | ⟨r', hf, ri', ht⟩
      · simp only [hf, bind_ok] at hh ⊢
        split
        · next h1 =>
          obtain ⟨c, ids, t, s1, s2, s3, s4⟩ := deleteOne_spec hm ri hi (start := start') (by omega) (hh.imp (fun hh => by omega) fun hh hp => hh (by
            rw [if_pos h1, hp]; rfl))
          have s4 : ∀ c, (⟨t, c⟩ : Rope).text = _ := fun _ => s4
          rw [show stop' = start' + 1 by omega]
          refine ⟨_, ?_, s3.mono hm1, s4 _⟩
          rw [s1]
          simp only [bind_ok]
          cases c with
          | none => rfl
          | some c =>
            have := s2 c rfl
            simp only [assertM, this, decide_true, if_true, bind_ok]
            rfl
        · next h1 =>
          obtain ⟨a, b, q1, q2, r', q3, q4, q5⟩ := deleteSlow_spec hm ri hi hlt (by omega) (hh.imp id fun hh a b qa qb hab hp => hh (by
            rw [if_neg h1, qa, bind_ok, qb, bind_ok]
            simp only
            rw [if_neg hab]
            exact hp))
          refine ⟨r', ?_, ?_, q5⟩
          · rw [q1, bind_ok, q2, bind_ok]
            exact q3
          · rw [if_neg (by omega)]; exact q4
      · simp only [hf, bind_ok]
        exact ⟨r', rfl, ri'.mono hm1, ht⟩

end GB

import Verif.Proof.Sample

/-!
# Content-level consequences of the list-level specifications
-/

namespace GB
variable {E C D X : Type}
open Tree

theorem InvH.ne {B : Trait E C D} {A : Law B} {m : Fill} {h : Nat} {s : Tree E C} (i : InvH A m h s) (hm : 1 ≤ m.lo) : NE s := Sz.ne i.sz hm

/-- every element of a valid tree is well-formed -/
theorem Inv.okE {B : Trait E C D} {A : Law B} {m : Fill} {s : Tree E C} (i : Inv A m s) : ∀ x ∈ entries s, A.okE x.2 := by
  obtain ⟨h, ⟨lvl, g⟩, -⟩ := i
  intro x hx
  exact g.okE x.1 x.2 (mem_entries_elm hx).2

theorem Inv.nodup {B : Trait E C D} {A : Law B} {m : Fill} {s : Tree E C} (i : Inv A m s) : ((entries s).map Prod.fst).Nodup := by
  obtain ⟨h, ⟨lvl, g⟩, -⟩ := i
  exact entries_nodup g.wf

/-- trees with at least five children per node and fewer than 3 906 250 leaves have at most nine levels -/
theorem Inv.low {B : Trait E C D} {A : Law B} {m : Fill} {s : Tree E C} (i : Inv A m s) (hm : 5 ≤ m.lo)
    (hn : (abs s).es.length < 3906250) : ∃ h, h ≤ 9 ∧ InvH A m h s := by
  obtain ⟨h, ⟨lvl, g⟩, sz⟩ := i
  exact ⟨h, height_le9 g.wf (Sz.mono (m' := 5) sz hm (Nat.le_trans hm (Nat.le_add_right _ _))) hn, ⟨lvl, g⟩, sz⟩

theorem abs_nil {B : Trait E C D} {A : Law B} {m : Fill} {h : Nat} {s : Tree E C} (i : InvH A m h s) : (abs s).es = [] ↔ order s = [] := by
  obtain ⟨lvl, g⟩ := i.ex
  have := entries_fst g.wf
  constructor
  · intro h1
    rw [← this]
    show List.map Prod.fst (abs s).es = []
    rw [h1]; rfl
  · intro h1
    simp only [abs, entries, h1]
    rfl

section
variable {B : Trait E C D} {okE : E → Prop} {cont : E → List X}

@[simp] theorem content_append (a b : List (Nat × E)) : content cont (a ++ b) = content cont a ++ content cont b := by simp [content]
@[simp] theorem content_cons (x : Nat × E) (b : List (Nat × E)) : content cont (x :: b) = cont x.2 ++ content cont b := by simp [content]
@[simp] theorem content_nil : content cont ([] : List (Nat × E)) = [] := rfl

@[simp] theorem unitLen_append (a b : List (Nat × E)) : unitLen B (a ++ b) = unitLen B a + unitLen B b := by simp [unitLen]
@[simp] theorem unitLen_cons (x : Nat × E) (b : List (Nat × E)) : unitLen B (x :: b) = B.rleLen x.2 + unitLen B b := by simp [unitLen]
@[simp] theorem unitLen_nil : unitLen B ([] : List (Nat × E)) = 0 := rfl

theorem content_length (L : ContentLaw B okE cont) : ∀ {es : List (Nat × E)}, (∀ x ∈ es, okE x.2) → (content cont es).length = unitLen B es := by
  intro es
  induction es with
  | nil => intro _; rfl
  | cons x es ih =>
    intro h
    simp only [content_cons, unitLen_cons, List.length_append, L.len x.2 (h x (by simp)), ih (fun y hy => h y (by simp [hy]))]

theorem splice_at (u c v : List X) (o : Nat) (ho : o ≤ c.length) (d : List X) :
    splice (u ++ (c ++ v)) (u.length + o) d = u ++ ((c.take o ++ d ++ c.drop o) ++ v) := by
  have h1 : (u ++ (c ++ v)).take (u.length + o) = u ++ c.take o := by
    rw [List.take_append, List.take_of_length_le (by omega), List.take_append_of_le_length (by omega)]
    simp
  have h2 : (u ++ (c ++ v)).drop (u.length + o) = c.drop o ++ v := by
    rw [List.drop_append, List.drop_of_length_le (by omega)]
    simp only [Nat.add_sub_cancel_left, List.nil_append]
    rw [List.drop_append_of_le_length ho]
  rw [splice, h1, h2]
  simp

theorem splice_end (u d : List X) : splice u u.length d = u ++ d := by simp [splice]

/-- inserting splices the units of the inserted element at the cursor -/
theorem specInsert_content (L : ContentLaw B okE cont) {t t' : Seq E} {c : Cursor} {data : E} {r : Cursor × List Nat}
    {U V : List (Nat × E)} {e : E} (hl : locate c.leaf t.es = some (U, e, V)) (hok : ∀ x ∈ t.es, okE x.2) (hd : okE data)
    (h : specInsert B t c data = .ok (r, t')) (htry : ∀ d', B.tryInsert e c.offset data = .ok (.inr d') → d' = data) :
    content cont t'.es = splice (content cont t.es) (unitLen B U + c.offset) (cont data) := by
  have hes := locate_some hl
  have he : okE e := hok (c.leaf, e) (by rw [hes]; simp)
  have hU : ∀ x ∈ U, okE x.2 := fun x hx => hok x (by rw [hes]; simp [hx])
  have hlen := L.len e he
  unfold specInsert at h
  rw [hl] at h
  simp only at h
  split at h
  · cases h
  · next ho =>
    have ho' : c.offset ≤ (cont e).length := by omega
    rw [hes, content_append, content_cons, ← content_length L hU, splice_at _ _ _ _ ho']
    cases ht : B.tryInsert e c.offset data with
    | error x => rw [ht] at h; cases h
    | ok y =>
      rw [ht, bind_ok] at h
      cases y with
      | inl e' =>
        simp only [pure_ok, Except.ok.injEq, Prod.mk.injEq] at h
        obtain ⟨-, rfl⟩ := h
        simp only [content_append, content_cons, L.tryInsert e c.offset data e' he hd (by omega) ht]
      | inr d' =>
        have := htry _ ht
        subst this
        simp only at h
        split at h
        · next hc =>
          cases hm : B.mergeLeft e d' with
          | error x => rw [hm] at h; cases h
          | ok e' =>
            rw [hm, bind_ok] at h
            simp only [pure_ok, Except.ok.injEq, Prod.mk.injEq] at h
            obtain ⟨-, rfl⟩ := h
            simp only [content_append, content_cons, L.merge_left d' e e' hd he hc.2 hm, hc.1, List.take_zero, List.drop_zero, List.nil_append]
        · split at h
          · next hc =>
            cases hm : B.mergeRight e d' with
            | error x => rw [hm] at h; cases h
            | ok e' =>
              rw [hm, bind_ok] at h
              simp only [pure_ok, Except.ok.injEq, Prod.mk.injEq] at h
              obtain ⟨-, rfl⟩ := h
              simp only [content_append, content_cons, L.merge_right e d' e' he hd hc.2 hm, hc.1, ← hlen, List.take_length, List.drop_length, List.append_nil]
          · split at h
            · next hc =>
              simp only [pure_ok, Except.ok.injEq, Prod.mk.injEq] at h
              obtain ⟨-, rfl⟩ := h
              simp [content_append, content_cons, hc]
            · split at h
              · next hc =>
                simp only [pure_ok, Except.ok.injEq, Prod.mk.injEq] at h
                obtain ⟨-, rfl⟩ := h
                simp [content_append, content_cons, hc, ← hlen]
              · next h0 h1 =>
                cases hm : B.split e c.offset with
                | error x => rw [hm] at h; cases h
                | ok y =>
                  obtain ⟨a, b⟩ := y
                  rw [hm, bind_ok] at h
                  simp only [pure_ok, Except.ok.injEq, Prod.mk.injEq] at h
                  obtain ⟨-, rfl⟩ := h
                  obtain ⟨ha, hb⟩ := L.split e c.offset a b he (by omega) (by omega) hm
                  simp [content_append, content_cons, ha, hb]

/-- the same with the contract of the callbacks -/
theorem specInsert_content' (L : ContentLaw B okE cont) {t t' : Seq E} {c : Cursor} {data : E} {r : Cursor × List Nat}
    {U V : List (Nat × E)} {e : E} (hl : locate c.leaf t.es = some (U, e, V)) (hok : ∀ x ∈ t.es, okE x.2) (hd : okE data)
    (A : Law B) (hA : A.okE = okE)
    (h : specInsert B t c data = .ok (r, t')) :
    content cont t'.es = splice (content cont t.es) (unitLen B U + c.offset) (cont data) := by
  apply specInsert_content L hl hok hd h
  intro d' hd'
  have hes := locate_some hl
  have he : okE e := hok (c.leaf, e) (by rw [hes]; simp)
  unfold specInsert at h
  rw [hl] at h
  simp only at h
  split at h
  · cases h
  · rcases A.tryInsert e c.offset data (hA ▸ he) (hA ▸ hd) (by omega) with ⟨e', h1, -⟩ | h1
    · rw [h1] at hd'; cases hd'
    · rw [h1] at hd'; cases hd'; rfl

/-- the sequence changes only at the leaf of the cursor -/
theorem specInsert_local' {t t' : Seq E} {c : Cursor} {data : E} {r : Cursor × List Nat}
    {U V : List (Nat × E)} {e : E} (hl : locate c.leaf t.es = some (U, e, V)) 
    (h : specInsert B t c data = .ok (r, t')) :
    ∃ M : List (Nat × E), t'.es = U ++ M ++ V ∧ 1 ≤ M.length ∧ M.length ≤ 3 ∧ (∀ x ∈ M, x.1 = c.leaf ∨ t.next ≤ x.1) ∧ t.next ≤ t'.next := by
  unfold specInsert at h
  rw [hl] at h
  simp only at h
  split at h
  · cases h
  · cases ht : B.tryInsert e c.offset data with
    | error x => rw [ht] at h; cases h
    | ok y =>
      rw [ht, bind_ok] at h
      cases y with
      | inl e' =>
        simp only [pure_ok, Except.ok.injEq, Prod.mk.injEq] at h
        obtain ⟨-, rfl⟩ := h
        exact ⟨[(c.leaf, e')], by simp, by simp, by simp, by simp, by simp⟩
      | inr d' =>
        simp only at h
        split at h
        · cases hm : B.mergeLeft e d' with
          | error x => rw [hm] at h; cases h
          | ok e' =>
            rw [hm, bind_ok] at h
            simp only [pure_ok, Except.ok.injEq, Prod.mk.injEq] at h
            obtain ⟨-, rfl⟩ := h
            exact ⟨[(c.leaf, e')], by simp, by simp, by simp, by simp, by simp⟩
        · split at h
          · cases hm : B.mergeRight e d' with
            | error x => rw [hm] at h; cases h
            | ok e' =>
              rw [hm, bind_ok] at h
              simp only [pure_ok, Except.ok.injEq, Prod.mk.injEq] at h
              obtain ⟨-, rfl⟩ := h
              exact ⟨[(c.leaf, e')], by simp, by simp, by simp, by simp, by simp⟩
          · split at h
            · simp only [pure_ok, Except.ok.injEq, Prod.mk.injEq] at h
              obtain ⟨-, rfl⟩ := h
              exact ⟨[(t.next, d'), (c.leaf, e)], by simp, by simp, by simp, by simp, by simp⟩
            · split at h
              · simp only [pure_ok, Except.ok.injEq, Prod.mk.injEq] at h
                obtain ⟨-, rfl⟩ := h
                exact ⟨[(c.leaf, e), (t.next, d')], by simp, by simp, by simp, by simp, by simp⟩
              · cases hm : B.split e c.offset with
                | error x => rw [hm] at h; cases h
                | ok y =>
                  obtain ⟨a, b⟩ := y
                  rw [hm, bind_ok] at h
                  simp only [pure_ok, Except.ok.injEq, Prod.mk.injEq] at h
                  obtain ⟨-, rfl⟩ := h
                  exact ⟨[(c.leaf, a), (t.next + 1, d'), (t.next, b)], by simp, by simp, by simp, by simp, by simp⟩

theorem specInsert_local {t t' : Seq E} {c : Cursor} {data : E} {r : Cursor × List Nat}
    {U V : List (Nat × E)} {e : E} (hl : locate c.leaf t.es = some (U, e, V))
    (h : specInsert B t c data = .ok (r, t')) :
    ∃ M : List (Nat × E), t'.es = U ++ M ++ V ∧ 1 ≤ M.length ∧ M.length ≤ 3 ∧ (∀ x ∈ M, x.1 = c.leaf ∨ t.next ≤ x.1) :=
  let ⟨M, h1, h2, h3, h4, _⟩ := specInsert_local' hl h
  ⟨M, h1, h2, h3, h4⟩

theorem specInsert_next {t t' : Seq E} {c : Cursor} {data : E} {r : Cursor × List Nat}
    {U V : List (Nat × E)} {e : E} (hl : locate c.leaf t.es = some (U, e, V))
    (h : specInsert B t c data = .ok (r, t')) : t.next ≤ t'.next :=
  let ⟨_, _, _, _, _, h5⟩ := specInsert_local' hl h
  h5

/-- pushing appends the units -/
theorem specPush_content (L : ContentLaw B okE cont) {t t' : Seq E} {c : Cursor} {data : E}
    (hok : ∀ x ∈ t.es, okE x.2) (hd : okE data) (h : specPush B t data = .ok (c, t')) :
    content cont t'.es = content cont t.es ++ cont data := by
  unfold specPush at h
  split at h
  · next l x hl =>
    obtain ⟨es, hes⟩ := getLast_split hl
    have hx : okE x := hok (l, x) (List.mem_of_getLast? hl)
    split at h
    · next hm =>
      cases hr : B.mergeRight x data with
      | error y => rw [hr] at h; cases h
      | ok x' =>
        rw [hr, bind_ok] at h
        simp only [pure_ok, Except.ok.injEq, Prod.mk.injEq] at h
        obtain ⟨-, rfl⟩ := h
        simp [hes, L.merge_right x data x' hx hd hm hr]
    · simp only [Except.ok.injEq, Prod.mk.injEq] at h
      obtain ⟨-, rfl⟩ := h
      simp
  · next hl =>
    simp only [Except.ok.injEq, Prod.mk.injEq] at h
    obtain ⟨-, rfl⟩ := h
    simp [List.getLast?_eq_none_iff.mp hl]

/-- prepending puts the units in front -/
theorem specPrepend_content (L : ContentLaw B okE cont) {t t' : Seq E} {c : Cursor} {data : E}
    (hok : ∀ x ∈ t.es, okE x.2) (hd : okE data) (h : specPrepend B t data = .ok (c, t')) :
    content cont t'.es = cont data ++ content cont t.es := by
  unfold specPrepend at h
  split at h
  · next l x es hl =>
    have hx : okE x := hok (l, x) (by rw [hl]; simp)
    split at h
    · next hm =>
      cases hr : B.mergeLeft x data with
      | error y => rw [hr] at h; cases h
      | ok x' =>
        rw [hr, bind_ok] at h
        simp only [pure_ok, Except.ok.injEq, Prod.mk.injEq] at h
        obtain ⟨-, rfl⟩ := h
        simp [hl, L.merge_left data x x' hd hx hm hr]
    · simp only [Except.ok.injEq, Prod.mk.injEq] at h
      obtain ⟨-, rfl⟩ := h
      simp
  · next hl =>
    simp only [Except.ok.injEq, Prod.mk.injEq] at h
    obtain ⟨-, rfl⟩ := h
    simp [hl]

end

/-- the rope's elements are byte strings -/
theorem ropeContent (cap : Nat) : ContentLaw ropeTrait (ropeLaw cap).okE GapBuf.toVec where
  len := fun e he => GapBuf.toVec_length e he.1
  merge_right := by
    intro a b e ha hb hm h
    obtain ⟨g, h1, -, -, h4⟩ := GapBuf.mergeRight_spec a b ha.1 hb.1 hm
    simp only [ropeTrait] at h
    rw [h1] at h; cases h; exact h4
  merge_left := by
    intro a b e ha hb hm h
    have hm' : b.len + a.len ≤ b.capacity := by
      simp only [ropeTrait, GapBuf.canMerge, decide_eq_true_eq] at hm
      rw [hb.2]; rw [ha.2] at hm; omega
    obtain ⟨g, h1, -, -, h4⟩ := GapBuf.mergeLeft_spec b a hb.1 ha.1 hm'
    simp only [ropeTrait] at h
    rw [h1] at h; cases h; exact h4
  split := by
    intro e i a b he h0 h1 h
    obtain ⟨l, r, h2, -, -, -, -, h7, h8⟩ := GapBuf.split_spec e he.1 i (Nat.le_of_lt h1)
    simp only [ropeTrait] at h
    rw [h2] at h; cases h; exact ⟨h7, h8⟩
  tryInsert := by
    intro e i d e' he hd hi h
    by_cases hb : e.len + d.len ≤ e.capacity
    · obtain ⟨g, h1, -, -, h4⟩ := GapBuf.tryInsert_spec e d he.1 hd.1 i hi hb
      simp only [ropeTrait] at h
      rw [h1] at h; cases h; exact h4
    · have := GapBuf.tryInsert_full e d i (by omega)
      simp only [ropeTrait] at h
      rw [this] at h; cases h

/-- the ordered map's elements are single units -/
theorem ordContent (K V : Type) : ContentLaw (ordTrait K V) (ordLaw K V).okE (fun e => [e]) where
  len := fun _ _ => rfl
  merge_right := fun _ _ _ _ _ h => by cases h
  merge_left := fun _ _ _ _ _ h => by cases h
  split := fun e i a b _ h0 h1 => by
    have : i < 1 := h1
    omega
  tryInsert := fun e i d e' _ _ _ h => by cases h

end GB

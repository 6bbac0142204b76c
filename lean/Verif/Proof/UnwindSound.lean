import Verif.Proof.Unwind
import Verif.Proof.SkelEdit
import Verif.Spec.UnwindHist

/-!
# Caught panics on trees whose caches may be wrong
-/

namespace GB
variable {E C D Q F X σ Arg : Type} {B : Trait E C D} {A : Law B} {s s' t : Tree E C} {lvl : Nat → Nat} {h : Nat}
open Tree

theorem Over.soundS {m : Fill} {ws : List Nat} (o : Over A s t ws) (hs : SoundH A.okE m h s) : SoundH A.okE m h t := by
  obtain ⟨lvl, w⟩ := hs.ex
  exact ⟨⟨lvl, o.sh.wf w⟩, SzX.congr o.sh hs.sz, o.ok⟩

theorem TreeSame.order {C' : Type} {t : Tree E C'} (h : TreeSame s t) : order s = order t := by
  simp only [GB.order, h.len, h.root, h.leavesAt]

theorem TreeSame.entriesOf {C' : Type} {t : Tree E C'} (h : TreeSame s t) (ls : List Nat) : entriesOf s ls = entriesOf t ls := by
  simp only [GB.entriesOf, elm, h.lf]

theorem sound_depth {okE : E → Prop} (L : ElemLaw B okE) {m : Fill} (hm : 1 ≤ m.lo) (hs : SoundH okE m h s) (hne : (abs s).es ≠ []) : depth s = .ok h := by
  have ts := strip_same s
  have hi := hs.strip L
  obtain ⟨lvl, g⟩ := hi.ex
  rw [depth_rel ts]
  rw [ts.abs] at hne
  exact depth_spec g.wf (hi.ne hm) fun h => hne ((abs_nil hi).mpr h)

theorem runUntil_fst (f : σ → E → Except E (σ × E × Option D)) : ∀ (es : List (Nat × E)) (st : σ) (done : List (Nat × E)) (x : Nat × E) (rest : List (Nat × E)),
    runUntil f st es = .error (done, x, rest) → (done ++ x :: rest).map Prod.fst = es.map Prod.fst := by
  intro es
  induction es with
  | nil => intro st done x rest h; cases h
  | cons y es ih =>
    intro st done x rest h
    obtain ⟨l, e⟩ := y
    cases hf : f st e with
    | error e' => simp only [runUntil, hf] at h; cases h; rfl
    | ok r =>
      obtain ⟨st', e', d⟩ := r
      simp only [runUntil, hf] at h
      cases hr : runUntil f st' es with
      | ok z => rw [hr] at h; cases h
      | error z =>
        obtain ⟨d1, x1, r1⟩ := z
        rw [hr] at h
        cases h
        simp only [List.cons_append, List.map_cons, ih _ _ _ _ hr]

/-- `update` on a sound tree, when the closure panics; elements of length 0 are allowed -/
theorem updateU_core {m : Fill} (hm1 : 1 ≤ m.lo) (hm5 : m.lo + m.d ≤ 5) (ct : CacheTotal B) {ho : HashOrd E} {f : σ → E → Except E (σ × E × Option D)} (hf : KeepsOK A f) (st : σ)
    (hs : SoundH A.okE m h s) (hsl : SplitLen B A.okE) {a b : Cursor} {ea eb : E} {Ua Va Ub Vb : List Nat}
    (ha : order s = Ua ++ a.leaf :: Va) (hea : elm s a.leaf = some ea) (hoa : a.offset ≤ B.rleLen ea)
    (hb : order s = Ub ++ b.leaf :: Vb) (heb : elm s b.leaf = some eb) (hob : b.offset ≤ B.rleLen eb)
    (hle : NotBehind B Ua Ub Vb a b eb) (hh : h ≤ 8)
    {sp : Seq E} {ws : List Nat} (hsp : specUnwind B f st (abs s) a b = .ok (some (sp, ws))) :
    ∃ t h', updateU B ho f st s a b = .ok (.error t) ∧ SoundH A.okE m h' t ∧ abs t = sp ∧
      (InRange B (abs s) a b → Edit (fun l => ¬ Before (abs s) l a.leaf ∧ ¬ Before (abs s) b.leaf l) (abs s) sp) := by
  have ts := strip_same s
  have sok : SeqOK (abs s) := by rw [ts.abs]; exact Inv.seqOK ⟨h, hs.strip (elemsOf A)⟩
  obtain ⟨⟨lvl, g⟩, sz⟩ := hs.strip (elemsOf A)
  have hea : elm (strip s) a.leaf = some ea := hea
  have heb : elm (strip s) b.leaf = some eb := heb
  rw [ts.order] at ha hb
  obtain ⟨ei, s1, si, s2', lvl2, h2, X, Y, Z, c1, c2, g2, sz2, hst, hord, n1, n2, -, -, L', n, k1, k2, -⟩ :=
    drain_cuts (B := bare B) hm1 hm5 g sz hsl ha hea hoa hb heb hob hle
  have r1 := splitLeafIfNeededF_rel (bare_same B) ct (bare_total B) 3 ts b
  rw [show splitLeafIfNeededF (bare B) 3 (strip s) b = _ from c1] at r1
  obtain ⟨⟨ei', t1⟩, d1, rfl, ts1⟩ := r1.of_ok
  have ts1 : TreeSame t1 s1 := ts1
  have r2 := splitLeafIfNeededF_rel (bare_same B) ct (bare_total B) 3 ts1 a
  rw [show splitLeafIfNeededF (bare B) 3 s1 a = _ from c2] at r2
  obtain ⟨⟨si', s2⟩, d2, rfl, ts2⟩ := r2.of_ok
  have ts2 : TreeSame s2 s2' := ts2
  have hs2 : SoundH A.okE m h2 s2 := ts2.sound ⟨⟨lvl2, g2.wf⟩, sz2, g2.okE⟩
  have w2 : WF s2 lvl2 h2 := ts2.wf g2.wf
  have hord : order s2 = X ++ Y ++ Z := ts2.order.trans hord
  have hh2 := hst.le.2
  have n1 : ei'.newPos = _ := n1
  have n2 : si'.newPos = _ := n2
  simp only [← ts2.entriesOf] at k1 k2
  rw [← ts2.lf] at k2
  rw [← ts.abs] at k1
  have k1 : specCut B (abs s) b = _ := k1
  have k2 : specCut B ⟨n, L' ++ entriesOf s2 Z⟩ a = _ := k2
  simp only [specUnwind, k1, bind_ok, k2, List.length_append, Nat.add_sub_cancel, List.take_left] at hsp
  cases hr : runUntil f st (entriesOf s2 Y) with
  | ok z => rw [hr] at hsp; cases hsp
  | error z =>
    obtain ⟨done, ⟨k, e'⟩, todo⟩ := z
    rw [hr] at hsp
    simp only [pure_ok, Except.ok.injEq, Option.some.injEq, Prod.mk.injEq] at hsp
    obtain ⟨rfl, rfl⟩ := hsp
    have hY : Y ≠ [] := by rintro rfl; rw [entriesOf_nil] at hr; cases hr
    obtain ⟨l, hl⟩ : ∃ l, (Y ++ Z).head? = some l := Option.ne_none_iff_exists'.mp (by simp [hY])
    rw [hl] at n2
    have hlm : l ∈ order s2 := by
      rw [hord, List.append_assoc]
      exact List.mem_append_right _ (List.mem_of_head? hl)
    have hstop : ei'.newPos.map Cursor.leaf = Z.head? := by
      rw [n1, Option.map_map]
      cases Z.head? <;> rfl
    have nd := order_nodup w2
    rw [hord, List.nodup_append] at nd
    obtain ⟨i, rest, p1, p2, p3⟩ := getPath_leaf w2 (by omega) ((mem_order w2).mp hlm)
    have hfuel : Y.length < leafFuel s2 := by
      have := order_length_le w2
      rw [hord] at this
      simp only [List.length_append] at this
      simp only [leafFuel]
      omega
    obtain ⟨t, r1, r2, r3⟩ := updateFU_spec hf (s0 := s2) (Z := Z) (stop := Z.head?) Y (leafFuel s2) s2 st X [] [] [] l i rest done k e' todo w2 (Sz.ne hs2.sz hm1) (Over.refl hs2.okE) hord hl
      (fun y hy hc => nd.2.2 y (by simp [hy]) y (List.mem_of_head? hc) rfl) p2 p3 hfuel hr
    refine ⟨t, h2, ?_, r2.soundS hs2, ?_, ?_⟩
    · have d1 : splitLeafIfNeeded B s b = _ := d1
      have d2 : splitLeafIfNeeded B t1 a = _ := d2
      simp only [updateU, d1, bind_ok, d2, pure_ok]
      rw [n2]
      simp only [Option.map_some, p1, hstop, r1, bind_ok]
    · rw [abs, r3, r2.sh.lfitems]
    · rintro ⟨hpos, Ua, ea, Va, Ub, eb, Vb, ha, hoa, hb, hob, hle⟩
      have := cuts_edit sok hpos ha hb hle k1 k2 (Y' := done ++ (k, e') :: todo) (by rw [runUntil_fst f _ _ _ _ _ hr]; exact List.Sublist.refl _)
      simpa using this

/-- the same for cursors that are in order by their positions -/
theorem updateU_sound {m : Fill} (hm1 : 1 ≤ m.lo) (hm5 : m.lo + m.d ≤ 5) (ct : CacheTotal B) {ho : HashOrd E} {f : σ → E → Except E (σ × E × Option D)} (hf : KeepsOK A f) (st : σ)
    (hs : SoundH A.okE m h s) (hsl : SplitLen B A.okE) {a b : Cursor} (hin : InRange B (abs s) a b) (hh : h ≤ 8)
    {sp : Seq E} {ws : List Nat} (hsp : specUnwind B f st (abs s) a b = .ok (some (sp, ws))) :
    ∃ t h', updateU B ho f st s a b = .ok (.error t) ∧ SoundH A.okE m h' t ∧ abs t = sp ∧
      Edit (fun l => ¬ Before (abs s) l a.leaf ∧ ¬ Before (abs s) b.leaf l) (abs s) sp := by
  obtain ⟨lvl, w⟩ := hs.ex
  obtain ⟨hpos, Ua, ea, Va, Ub, eb, Vb, ha, hoa, hb, hob, hle⟩ := id hin
  obtain ⟨ua, va, o1, rfl, -, hea⟩ := entries_split w ha
  obtain ⟨ub, vb, o2, rfl, -, heb⟩ := entries_split w hb
  obtain ⟨t, h', u1, u2, u3, u4⟩ := updateU_core hm1 hm5 ct (ho := ho) hf st hs hsl o1 hea hoa o2 heb hob
    (notBehind_of_pos w (fun l x hx => hpos (l, x) ((entries_mem w).mpr hx)) o1 o2 heb hob hle) hh hsp
  exact ⟨t, h', u1, u2, u3, u4 hin⟩

theorem getLf_inv {l : Nat} {x : LeafNode E} (hg : s.getLf l = .ok x) : s.lf.get l = some x := by
  unfold getLf at hg
  cases hx : s.lf.get l with
  | none => rw [hx] at hg; cases hg
  | some y => rw [hx] at hg; cases hg; rfl

/-- where the search of `update_leaf_by_search` ends -/
theorem search_found (w : WF s lvl h) (ne : NE s) (h10 : h ≤ 10) {q : Query E C Q F} {arg : Q} {r : QueryResult} {fd : F}
    (hq : queryWithFinder q s arg = .ok (some r, fd)) {e : E} {U V : List (Nat × E)} (hent : entries s = U ++ (r.cursor.leaf, e) :: V) :
    isEmpty s = .ok false ∧ ∃ p i path fdm fnd,
      searchPathF q arg (s.fuel + 1) s (.internal s.root) 0 [] (q.init arg) = .ok (r.cursor.leaf, i, path, fdm) ∧
      s.lf.get r.cursor.leaf = some ⟨e, p⟩ ∧ q.confirm fdm arg e = .ok ((r.cursor.offset, fnd), fd) := by
  have hem : isEmpty s = .ok false := by
    rw [isEmpty_spec w ne]
    cases ho : order s with
    | nil =>
      have := entries_fst w
      rw [hent, ho] at this
      simp at this
    | cons a b => rfl
  refine ⟨hem, ?_⟩
  simp only [queryWithFinder, hem, bind_ok, Bool.false_eq_true, if_false] at hq
  obtain ⟨⟨r', fd'⟩, h1, h2⟩ := bind_inv hq
  cases h2
  obtain ⟨p, i, arr, cp, rest, fdm, e', lf, k1, k2, k3, k4, k5, k6⟩ := searchPath_spec w h10 q arg s.fuel s.root 0 _ [] _ _ _ _ h1
    (.root 0) (by simpa using w.root_lvl)
  have hme : elm s r'.cursor.leaf = some e := (entries_mem w).mp (by rw [hent]; simp)
  rw [hme] at k4
  cases k4
  obtain ⟨el, hL, hel⟩ := getLf_of (w.klf k2).2
  rw [hme] at hel
  cases hel
  exact ⟨p, i, _, fdm, lf, k1, hL, k5⟩

/-- `update_leaf_by_search` on a sound tree: the closure panics at the element that the query finds -/
theorem bySearchU_sound (w : WF s lvl h) (ne : NE s) (h10 : h ≤ 10) (ok : ∀ k e, elm s k = some e → A.okE e) {q : Query E C Q F} {arg : Q} {r : QueryResult} {e : E}
    (hq : query q s arg = .ok (some r)) (he : (r.cursor.leaf, e) ∈ (abs s).es) {f : E → QueryResult → Except E (E × Option (D × Option E × Option E))}
    (hf : ∀ fnd, ∃ e', A.okE e' ∧ (f e ⟨r.cursor, fnd⟩ = .error e' ∨ ∃ d n1 n2, f e ⟨r.cursor, fnd⟩ = .ok (e', some (d, n1, some n2)))) :
    ∃ t, bySearchU B q s arg f = .ok (.error t) ∧ Over A s t [r.cursor.leaf] := by
  obtain ⟨U, V, hes⟩ := List.append_of_mem he
  obtain ⟨fd, hq⟩ := query_with hq
  obtain ⟨h1, p, i, path, fdm, fnd, k1, k2, k3⟩ := search_found w ne h10 hq hes
  obtain ⟨e', ok', hf⟩ := hf fnd
  refine ⟨_, ?_, (Over.refl ok).set k2 ok'⟩
  unfold bySearchU
  rcases hf with hf | ⟨d, n1, n2, hf⟩
  · have hf' : f e ⟨⟨r.cursor.leaf, r.cursor.offset⟩, fnd⟩ = .error e' := hf
    simp only [h1, bind_ok, Bool.false_eq_true, if_false, k1, getLf_ok k2, k3, hf', pure_ok]
  · have hf' : f e ⟨⟨r.cursor.leaf, r.cursor.offset⟩, fnd⟩ = .ok (e', some (d, n1, some n2)) := hf
    simp only [h1, bind_ok, Bool.false_eq_true, if_false, k1, getLf_ok k2, k3, hf', pure_ok]

/-- `update_leaves_with_arg_in_ranges` on any tree with valid elements, if it is unwound -/
theorem updateLeavesU_over (w : WF s lvl h) (ok : ∀ k e, elm s k = some e → A.okE e) {ho : HashOrd E} (hgrp : ∀ l, (ho.grp l).Perm l)
    {f : σ → E → Arg → Except E (σ × E)} (hf : KeepsArg A f) (st : σ) {args : List (Nat × Nat × Nat × Arg)}
    (hin : ∀ a ∈ args, ∀ e, (a.1, e) ∈ (abs s).es → a.2.1 ≤ a.2.2.1 ∧ a.2.2.1 ≤ B.rleLen e) (hu : updateLeavesU B ho f st s args = .ok (.error t)) :
    ∃ ws, (∀ l ∈ ws, ∃ a ∈ args, a.1 = l) ∧ Over A s t ws := by
  rw [updateLeavesU] at hu
  obtain ⟨r, hr, hu⟩ := bind_inv hu
  cases r with
  | ok r =>
    obtain ⟨x, -, hu⟩ := bind_inv hu
    obtain ⟨y, -, hu⟩ := bind_inv hu
    cases hu
  | error t' =>
    cases hu
    obtain ⟨ws, -, h2, h3, -⟩ := updGroupsU_over hf (s0 := s) _ st s [] [] [] ((hgrp _).nodup_iff.mpr (nodup_eraseDups' _)) (by simp) (Over.refl ok) (fun _ h => (by cases h)) (by
      intro l _ e he x hx
      obtain ⟨a, ha, rfl⟩ := List.mem_map.mp hx
      obtain ⟨ha1, hl⟩ := List.mem_filter.mp ha
      have hl : a.1 = l := by simpa using hl
      subst hl
      exact hin a ha1 e ((entries_mem w).mpr he)) hr
    rw [List.nil_append] at h3
    refine ⟨ws, fun l hl => ?_, h3⟩
    have := (hgrp _).mem_iff.mp (h2.subset hl)
    rw [List.mem_eraseDups] at this
    exact List.mem_map.mp this

/-- what is written over is an edit of these leaves -/
theorem Over.edit {ws : List Nat} {S : Nat → Prop} (w : WF s lvl h) (o : Over A s t ws) (hS : ∀ l ∈ ws, S l) : Edit S (abs s) (abs t) where
  keep := by
    intro l e hl he
    have he : GB.elm s l = some e := (entries_mem w).mp he
    exact (entries_mem (o.sh.wf w)).mpr (by rw [o.elm l fun h => hl (hS l h)]; exact he)
  order := by
    have : (abs t).es.map Prod.fst = (abs s).es.map Prod.fst := by
      show (entries t).map Prod.fst = (entries s).map Prod.fst
      rw [entries_fst (o.sh.wf w), entries_fst w, o.sh.order]
    rw [this]
    exact List.filter_sublist
  next := Nat.le_of_eq o.sh.lfitems.symm

end GB

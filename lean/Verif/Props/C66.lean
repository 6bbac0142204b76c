import Verif.Proof.Moves
import Verif.Props.C03
import Verif.Props.C04
import Verif.Props.C18
import Verif.Props.C21
import Verif.Props.C20
import Verif.Props.C22
import Verif.Props.C24
import Verif.Proof.MovesMany
import Verif.Proof.SampleTwo

/-!
# C66: cursors move with the text

A cursor kept across an edit elsewhere stays on the same unit.  In front of the edited part its position does not change; behind it, it
moves by the number of units inserted or removed.  `posOf` is the number of units before a cursor (`Spec/Seq.lean`), and it is what
`visit_previous_caches` reports (C15).
-/

namespace GB
variable {E C D X σ : Type}
open Tree

theorem C66_insert {B : Trait E C D} {A : Law B} {cont : E → List X} (K : ContentLaw B A.okE cont)
    {m : Fill} {s : Tree E C} {cur : Cursor} {e data : E} {U V : List (Nat × E)}
    (hm : 1 ≤ m.lo ∧ m.lo + m.d ≤ 6) (hi : Inv A m s) (hc : (abs s).es = U ++ (cur.leaf, e) :: V) (ho : cur.offset ≤ B.rleLen e)
    (h5 : m.lo + m.d ≤ 5 ∨ cur.offset = 0 ∨ cur.offset = B.rleLen e) (hd : A.okE data) :
    ∃ c sp s', insertByPath B s cur data = .ok ((c, sp), s') ∧ Inv A m s' ∧ Moves B U V 0 (B.rleLen data) (abs s) (abs s') := by
  obtain ⟨c, sp, s', h1, h2, h3⟩ := C03_insert_by_path (B := B) hm hi (by rw [hc]; simp) ho h5 hd
  obtain ⟨c', sp', s'', h4, -, h6⟩ := C03_insert_content K hm hi hc ho h5 hd
  rw [h1] at h4
  cases h4
  obtain ⟨h, ⟨lvl, g⟩, sz⟩ := id hi
  obtain ⟨h', ⟨lvl', g'⟩, sz'⟩ := id h2
  obtain ⟨M, hM, -⟩ := specInsert_local ((locate_entries g.wf).mpr hc) h3
  have nd : ((abs s).es.map Prod.fst).Nodup := entries_nodup g.wf
  have nd' : ((abs s').es.map Prod.fst).Nodup := entries_nodup g'.wf
  have okE : ∀ x ∈ (abs s).es, A.okE x.2 := hi.okE
  have okE' : ∀ x ∈ (abs s').es, A.okE x.2 := h2.okE
  have hlen := congrArg List.length h6
  rw [content_length K okE', splice, List.length_append, List.length_append, List.length_take, List.length_drop,
    content_length K okE, K.len _ hd, hc, hM] at hlen
  simp only [unitLen_append, unitLen_cons] at hlen
  rw [hc, show U ++ (cur.leaf, e) :: V = U ++ [(cur.leaf, e)] ++ V by simp] at nd
  rw [hM] at nd'
  refine ⟨c, sp, s', h1, h2, ?_⟩
  rw [show abs s = ⟨(abs s).next, U ++ [(cur.leaf, e)] ++ V⟩ by rw [← show U ++ (cur.leaf, e) :: V = U ++ [(cur.leaf, e)] ++ V by simp, ← hc],
    show abs s' = ⟨(abs s').next, U ++ M ++ V⟩ by rw [← hM]]
  refine moves_of nd nd' ?_
  simp only [unitLen_cons, unitLen_nil]
  omega

/-- The leaf of the cursor itself: the new units are at the cursor returned, cursors before the insertion keep their position, and the
units behind it are found with the help of the answer: in the leaf that was split off, behind the new units in the same leaf, or where
they were if a leaf was put in front. -/
theorem C66_insert_within {B : Trait E C D} {A : Law B} {cont : E → List X} (K : ContentLaw B A.okE cont)
    {m : Fill} {s : Tree E C} {cur : Cursor} {e data : E} {U V : List (Nat × E)}
    (hm : 1 ≤ m.lo ∧ m.lo + m.d ≤ 6) (hi : Inv A m s) (hc : (abs s).es = U ++ (cur.leaf, e) :: V) (ho : cur.offset ≤ B.rleLen e)
    (h5 : m.lo + m.d ≤ 5 ∨ cur.offset = 0 ∨ cur.offset = B.rleLen e) (hd : A.okE data) :
    ∃ c sp s', insertByPath B s cur data = .ok ((c, sp), s') ∧ Inv A m s' ∧ sp.length ≤ 1 ∧
      Within B cur (B.rleLen e) (B.rleLen data) (unitLen B U + cur.offset) c sp (abs s) (abs s') := by
  obtain ⟨c, sp, s', h1, h2, h3⟩ := C03_insert_by_path (B := B) hm hi (by rw [hc]; simp) ho h5 hd
  obtain ⟨h, ⟨lvl, g⟩, sz⟩ := id hi
  have hmem : (cur.leaf, e) ∈ (abs s).es := by rw [hc]; simp
  have he : A.okE e := hi.okE (cur.leaf, e) hmem
  refine ⟨c, sp, s', h1, h2, specInsert_splits h3, ?_⟩
  refine specInsert_within K ((locate_entries g.wf).mpr hc) he hd ?_ h3 ?_ h2.okE
  · exact entries_lt (s := s) (e := e) hmem
  · intro d' hd'
    rcases A.tryInsert e cur.offset data he hd ho with ⟨e', h1, -⟩ | h1
    · rw [h1] at hd'; cases hd'
    · rw [h1] at hd'; cases hd'; rfl

theorem C66_remove {B : Trait E C D} {A : Law B} {m : Fill} {s : Tree E C} {cur : Cursor} {e : E} {U V : List (Nat × E)}
    (hm : 1 ≤ m.lo ∧ m.lo + m.d ≤ 6) (hE : 2 ≤ m.lo ∨ LawE A) (hi : Inv A m s) (hc : (abs s).es = U ++ (cur.leaf, e) :: V) :
    ∃ s', removeLeaf B s cur = .ok (some e, s') ∧ Inv A m s' ∧ Moves B U V (B.rleLen e) 0 (abs s) (abs s') := by
  obtain ⟨s', h1, h2, h3⟩ := C04_remove_leaf hm hE hi hc
  obtain ⟨h, ⟨lvl, g⟩, sz⟩ := id hi
  obtain ⟨h', ⟨lvl', g'⟩, sz'⟩ := id h2
  have nd : ((abs s).es.map Prod.fst).Nodup := entries_nodup g.wf
  have nd' : ((abs s').es.map Prod.fst).Nodup := entries_nodup g'.wf
  have e1 : U ++ (cur.leaf, e) :: V = U ++ [(cur.leaf, e)] ++ V := by simp
  have e2 : U ++ V = U ++ [] ++ V := by simp
  rw [hc, e1] at nd
  rw [h3, e2] at nd'
  refine ⟨s', h1, h2, ?_⟩
  rw [h3, e2, show abs s = ⟨(abs s).next, U ++ [(cur.leaf, e)] ++ V⟩ by rw [← e1, ← hc]]
  exact moves_of nd nd' (by simp)

/-- For a range of the tree, from a leaf of `W` to a leaf of `W`: what lies before and behind `W` moves by the length of the range. -/
theorem C66_drain {B : Trait E C D} {A : Law B} {cont : E → List X} (K : ContentLaw B A.okE cont) {m : Fill} {h : Nat} {s : Tree E C}
    (hm : 1 ≤ m.lo ∧ m.lo + m.d ≤ 5) (hi : InvH A m h s) (hpos : ∀ x ∈ (abs s).es, 0 < B.rleLen x.2)
    {a b : Cursor} {Ua Va Ub Vb : List (Nat × E)} {ea eb : E} {i j : Nat}
    (ha : (abs s).es = Ua ++ (a.leaf, ea) :: Va) (hoa : a.offset ≤ B.rleLen ea) (hia : unitLen B Ua + a.offset = i)
    (hb : (abs s).es = Ub ++ (b.leaf, eb) :: Vb) (hob : b.offset ≤ B.rleLen eb) (hjb : unitLen B Ub + b.offset = j)
    (hle : i ≤ j) (hend : i < unitLen B (abs s).es) (fa fb : Bool) (k : Nat)
    (hh : h ≤ 8 ∨ drain B s ⟨a, fa⟩ ⟨b, fb⟩ k ≠ .error .panic)
    {U W V : List (Nat × E)} (hW : (abs s).es = U ++ W ++ V) (haW : a.leaf ∈ W.map Prod.fst) (hbW : b.leaf ∈ W.map Prod.fst) :
    ∃ (Y : List (Nat × E)) (s' : Tree E C) (h' : Nat), drain B s ⟨a, fa⟩ ⟨b, fb⟩ k = .ok ((Y.take k).map Prod.snd, (Y.drop k).map Prod.snd, s') ∧
      InvH A m.drained h' s' ∧ Moves B U V (j - i) 0 (abs s) (abs s') := by
  obtain ⟨Y, s', h', d1, d2, d3, -⟩ := C18_drain hm hi K.splitLen hpos ha hoa hb hob (by omega) (by omega) fa fb k hh
  obtain ⟨Y1, s1, h1, d4, -, -, -, d5, -⟩ := C18_drain_content K hm hi hpos ha hoa hia hb hob hjb hle hend fa fb k hh
  rw [d1] at d4
  injection d4 with d4
  have hs : s' = s1 := congrArg (fun x => x.2.2) d4
  subst hs
  obtain ⟨lvl, g⟩ := hi.ex
  obtain ⟨lvl', g'⟩ := d3.ex
  have nd : ((abs s).es.map Prod.fst).Nodup := entries_nodup g.wf
  have nd' : ((abs s').es.map Prod.fst).Nodup := entries_nodup g'.wf
  have hU : ∀ {l : Nat}, l ∈ W.map Prod.fst → l ∉ U.map Prod.fst := by
    intro l hl hU
    rw [hW, List.append_assoc, List.map_append] at nd
    exact (List.nodup_append.mp nd).2.2 _ hU _ (by rw [List.map_append]; exact List.mem_append_left _ hl) rfl
  have es : abs s = ⟨(abs s).next, U ++ W ++ V⟩ := by rw [← hW]
  unfold specDrain at d2
  rw [es] at d2
  obtain ⟨⟨L, R, n⟩, k1, d2⟩ := bind_inv d2
  obtain ⟨⟨X', S, n'⟩, k2, d2⟩ := bind_inv d2
  injection d2 with d2
  have hs' : (abs s').es = X' ++ R := (congrArg (fun x => x.2.es) d2).symm
  obtain ⟨P, Q, rfl, rfl⟩ := cuts_middle (hU haW) (hU hbW) haW hbW k1 k2
  have hs2 : (abs s').es = U ++ (P ++ Q) ++ V := by rw [hs']; simp only [List.append_assoc]
  have hlen := congrArg List.length d5
  have hj : j ≤ unitLen B (abs s).es := by
    rw [hb]
    simp only [unitLen_append, unitLen_cons]
    omega
  have okE : ∀ x ∈ (abs s).es, A.okE x.2 := Inv.okE ⟨h, hi⟩
  have okE' : ∀ x ∈ (abs s').es, A.okE x.2 := Inv.okE ⟨h', d3⟩
  rw [content_length K okE', List.length_append, List.length_take, List.length_drop, content_length K okE] at hlen
  have e3 : unitLen B (abs s').es + (j - i) = unitLen B (abs s).es := by omega
  rw [hs2, hW] at e3
  simp only [unitLen_append] at e3
  refine ⟨Y, s', h', d1, d3, ?_⟩
  rw [hW] at nd
  rw [hs2] at nd'
  rw [es, show abs s' = ⟨(abs s').next, U ++ (P ++ Q) ++ V⟩ by rw [← hs2]]
  refine moves_of nd nd' ?_
  simp only [unitLen_append]
  omega

/-- Outside a range given to `update`, cursors move by the change of the total length. -/
theorem C66_update {B : Trait E C D} {A : Law B} {R : C → D → C → Prop} (L : DiffLaw A R) {m : Fill} {h : Nat} {s : Tree E C} (hm : 1 ≤ m.lo ∧ m.lo + m.d ≤ 5)
    (hE : 2 ≤ m.lo ∨ LawE A) (hi : InvH A m h s) (hsl : SplitLen B A.okE) (hpos : ∀ x ∈ (abs s).es, 0 < B.rleLen x.2)
    {ho : HashOrd E} (hho : ∀ l, (ho.idx l).Perm l) {f : σ → E → M (σ × E × Option D)} (hf : ClosureOK A R f) (st : σ)
    {a b : Cursor} {Ua Va Ub Vb : List (Nat × E)} {ea eb : E} (ha : (abs s).es = Ua ++ (a.leaf, ea) :: Va) (hoa : a.offset ≤ B.rleLen ea)
    (hb : (abs s).es = Ub ++ (b.leaf, eb) :: Vb) (hob : b.offset ≤ B.rleLen eb) (hle : unitLen B Ua + a.offset ≤ unitLen B Ub + b.offset)
    (hh : h ≤ 8 ∨ update B ho f st s a b ≠ .error .panic)
    {U W V : List (Nat × E)} (hW : (abs s).es = U ++ W ++ V) (haW : a.leaf ∈ W.map Prod.fst) (hbW : b.leaf ∈ W.map Prod.fst) :
    ∃ st' l s', update B ho f st s a b = .ok (st', l, s') ∧ Inv A m s' ∧
      Moves B U V (unitLen B (abs s).es) (unitLen B (abs s').es) (abs s) (abs s') := by
  obtain ⟨st', s', h', d1, d2, d3, -⟩ := C21_update L hm hE hi hsl hpos hho hf st ha hoa hb hob hle hh
  obtain ⟨lvl, g⟩ := hi.ex
  obtain ⟨lvl', g'⟩ := d3.ex
  have nd : ((abs s).es.map Prod.fst).Nodup := entries_nodup g.wf
  have nd' : ((abs s').es.map Prod.fst).Nodup := entries_nodup g'.wf
  have hU : ∀ {l : Nat}, l ∈ W.map Prod.fst → l ∉ U.map Prod.fst := by
    intro l hl hU
    rw [hW, List.append_assoc, List.map_append] at nd
    exact (List.nodup_append.mp nd).2.2 _ hU _ (by rw [List.map_append]; exact List.mem_append_left _ hl) rfl
  have es : abs s = ⟨(abs s).next, U ++ W ++ V⟩ := by rw [← hW]
  unfold specUpdate at d2
  rw [es] at d2
  obtain ⟨⟨L', R', n⟩, k1, d2⟩ := bind_inv d2
  obtain ⟨⟨X', S, n'⟩, k2, d2⟩ := bind_inv d2
  obtain ⟨⟨st1, Y⟩, k3, d2⟩ := bind_inv d2
  injection d2 with d2
  have hs' : (abs s').es = X' ++ Y.filter (fun x => !B.canRemove x.2) ++ R' := (congrArg (fun x => x.2.es) d2).symm
  obtain ⟨P, Q, rfl, rfl⟩ := cuts_middle (hU haW) (hU hbW) haW hbW k1 k2
  have hs2 : (abs s').es = U ++ (P ++ Y.filter (fun x => !B.canRemove x.2) ++ Q) ++ V := by rw [hs']; simp only [List.append_assoc]
  refine ⟨st', _, s', d1, ⟨h', d3⟩, ?_⟩
  have e1 : unitLen B (abs s).es = unitLen B (U ++ W ++ V) := by rw [hW]
  have e2 : unitLen B (abs s').es = unitLen B (U ++ (P ++ Y.filter (fun x => !B.canRemove x.2) ++ Q) ++ V) := by rw [hs2]
  rw [hW] at nd
  rw [hs2] at nd'
  rw [e1, e2, es, show abs s' = ⟨(abs s').next, U ++ (P ++ Y.filter (fun x => !B.canRemove x.2) ++ Q) ++ V⟩ by rw [← hs2]]
  refine moves_of nd nd' ?_
  simp only [unitLen_append]
  omega

/-- `update_leaf`: what lies behind the leaf moves by the difference between the surviving results and the old element.  If the last
result was merged into the next leaf `k`, that leaf itself is not covered. -/
theorem C66_update_leaf {B : Trait E C D} {A : Law B} {cont : E → List X} (K : ContentLaw B A.okE cont) {m : Fill} {s : Tree E C} {l : Nat} {e : E}
    {U V : List (Nat × E)} {f : E → M (E × Bool × Option E × Option E)} {e1 : E} {need : Bool} {n1 n2 : Option E}
    (hm : 1 ≤ m.lo ∧ m.lo + m.d ≤ 5) (hi : Inv A m s) (hes : (abs s).es = U ++ (l, e) :: V)
    (hf : f e = .ok (e1, need, n1, n2)) (ok1 : A.okE e1) (okn1 : ∀ b, n1 = some b → A.okE b) (okn2 : ∀ b, n2 = some b → A.okE b)
    (hneed : need = true ∨ B.elemCache ((survivors B e1 n1 n2).headD e1) = B.elemCache e)
    (hrem : survivors B e1 n1 n2 = [] → LawE A ∧ Neutral A e1) :
    ∃ b ids s' V1 V2, updateLeaf B s l f = .ok (b, ids, s') ∧ Inv A m s' ∧ V = V1 ++ V2 ∧ (V1 = [] ∨ ∃ k z, V1 = [(k, z)] ∧ ids = [k]) ∧
      Moves B U V2 (B.rleLen e) ((survivors B e1 n1 n2).map B.rleLen).sum (abs s) (abs s') := by
  obtain ⟨b, ids, s', h1, h2, h3⟩ := C20_update_leaf hm hi hes hf ok1 okn1 okn2 hneed hrem
  have nd : ((abs s).es.map Prod.fst).Nodup := hi.nodup
  have nd' : ((abs s').es.map Prod.fst).Nodup := h2.nodup
  have okE : ∀ x ∈ (abs s).es, A.okE x.2 := hi.okE
  have okS : ∀ x ∈ survivors B e1 n1 n2, A.okE x := by
    intro x hx
    simp only [survivors, List.cons_append, List.mem_filter, List.mem_cons, List.mem_append, Option.mem_toList] at hx
    rcases hx.1 with h | h | h
    · exact h ▸ ok1
    · exact okn1 x h
    · exact okn2 x h
  have okE' : ∀ x ∈ (abs s').es, A.okE x.2 := h2.okE
  generalize survivors B e1 n1 n2 = sv at *
  have main : ∀ (Y Y' V1 V2 : List (Nat × E)), V = V1 ++ V2 → (abs s).es = U ++ Y ++ V2 → (abs s').es = U ++ Y' ++ V2 →
      unitLen B Y + (sv.map B.rleLen).sum = unitLen B Y' + B.rleLen e → Moves B U V2 (B.rleLen e) (sv.map B.rleLen).sum (abs s) (abs s') := by
    intro Y Y' V1 V2 _ e1 e2 hl
    rw [e1] at nd
    rw [e2] at nd'
    rw [show abs s = ⟨(abs s).next, U ++ Y ++ V2⟩ by rw [← e1], show abs s' = ⟨(abs s').next, U ++ Y' ++ V2⟩ by rw [← e2]]
    exact moves_of nd nd' hl
  generalize hes' : (abs s').es = es' at h3
  generalize (abs s').next = nx at h3
  cases h3 with
  | gone =>
    exact ⟨_, _, s', [], V, h1, h2, rfl, .inl rfl, main [(l, e)] [] [] V rfl (by rw [hes]; simp) (by rw [hes']; simp) (by simp [unitLen_cons, unitLen_nil])⟩
  | one x =>
    exact ⟨_, _, s', [], V, h1, h2, rfl, .inl rfl,
      main [(l, e)] [(l, x)] [] V rfl (by rw [hes]; simp) (by rw [hes']; simp) (by simp [unitLen_cons, unitLen_nil]; omega)⟩
  | two x a =>
    exact ⟨_, _, s', [], V, h1, h2, rfl, .inl rfl,
      main [(l, e)] [(l, x), ((abs s).next, a)] [] V rfl (by rw [hes]; simp) (by rw [hes']; simp) (by simp [unitLen_cons, unitLen_nil]; omega)⟩
  | three x a b =>
    exact ⟨_, _, s', [], V, h1, h2, rfl, .inl rfl,
      main [(l, e)] [(l, x), ((abs s).next, a), ((abs s).next + 1, b)] [] V rfl (by rw [hes]; simp) (by rw [hes']; simp) (by simp [unitLen_cons, unitLen_nil]; omega)⟩
  | merged x a k z z' V' hV hc hz =>
    subst hV
    have oz : A.okE z := okE (k, z) (by rw [hes]; simp)
    have oz' : A.okE z' := okE' (k, z') (by rw [hes']; simp)
    have oa : A.okE a := okS a (by simp)
    have hlen := congrArg List.length (K.merge_left a z z' oa oz hc hz)
    rw [List.length_append, K.len _ oz, K.len _ oz', K.len _ oa] at hlen
    exact ⟨_, _, s', [(k, z)], V', h1, h2, rfl, .inr ⟨k, z, rfl, rfl⟩,
      main [(l, e), (k, z)] [(l, x), (k, z')] [(k, z)] V' rfl (by rw [hes]; simp) (by rw [hes']; simp) (by simp [unitLen_cons, unitLen_nil]; omega)⟩

/-- `update_leaf_by_search`: likewise, around the leaf that is found. -/
theorem C66_by_search {Q F : Type} {B : Trait E C D} {A : Law B} {m : Fill} {h : Nat} {s : Tree E C} {q : Query E C Q F} {arg : Q} {r : QueryResult}
    {e : E} {U V : List (Nat × E)} (hm : 1 ≤ m.lo ∧ m.lo + m.d ≤ 5) (hi : InvH A m h s) (h10 : h ≤ 10)
    (hq : query q s arg = .ok (some r)) (hes : (abs s).es = U ++ (r.cursor.leaf, e) :: V) :
    ∃ fnd, (r.found = true → fnd = true) ∧
      ∀ (f : E → QueryResult → M (E × Option (D × Option E × Option E))) (e1 : E) (d : D) (n1 : Option E),
      f e ⟨r.cursor, fnd⟩ = .ok (e1, some (d, n1, none)) → A.okE e1 → (∀ a, n1 = some a → A.okE a) →
      (B.canRemove e1 = true → n1 = none ∧ LawE A) →
      Exact A (B.elemCache e) d ((searchResults B e1 n1).map B.elemCache) →
      ∃ cur ids s', updateLeafBySearch B q s arg f = .ok (cur, ids, s') ∧ Inv A m s' ∧
        Moves B U V (B.rleLen e) ((searchResults B e1 n1).map B.rleLen).sum (abs s) (abs s') := by
  obtain ⟨fnd, hfnd, key⟩ := C22_update_leaf_by_search hm hi h10 hq hes
  refine ⟨fnd, hfnd, fun f e1 d n1 a1 a2 a3 a4 a5 => ?_⟩
  obtain ⟨cur, ids, s', h1, h2, h3⟩ := key f e1 d n1 a1 a2 a3 a4 a5
  refine ⟨cur, ids, s', h1, h2, ?_⟩
  have nd : ((abs s).es.map Prod.fst).Nodup := Inv.nodup ⟨h, hi⟩
  have nd' : ((abs s').es.map Prod.fst).Nodup := h2.nodup
  generalize searchResults B e1 n1 = sv at h3 ⊢
  have main : ∀ (Y' : List (Nat × E)), (abs s').es = U ++ Y' ++ V →
      B.rleLen e + (sv.map B.rleLen).sum = unitLen B Y' + B.rleLen e → Moves B U V (B.rleLen e) (sv.map B.rleLen).sum (abs s) (abs s') := by
    intro Y' e2 hl
    rw [hes, show U ++ (r.cursor.leaf, e) :: V = U ++ [(r.cursor.leaf, e)] ++ V by simp] at nd
    rw [e2] at nd'
    rw [show abs s = ⟨(abs s).next, U ++ [(r.cursor.leaf, e)] ++ V⟩ by rw [List.append_assoc, List.singleton_append, ← hes],
      show abs s' = ⟨(abs s').next, U ++ Y' ++ V⟩ by rw [← e2]]
    exact moves_of nd nd' (by simpa [unitLen_cons, unitLen_nil] using hl)
  generalize hes' : (abs s').es = es' at h3
  generalize (abs s').next = nx at h3
  cases h3 with
  | gone => exact main [] (by rw [hes']; simp) (by simp [unitLen_nil])
  | one x => exact main [(r.cursor.leaf, x)] (by rw [hes']; simp) (by simp [unitLen_cons, unitLen_nil]; omega)
  | two x a => exact main [(r.cursor.leaf, x), ((abs s).next, a)] (by rw [hes']; simp) (by simp [unitLen_cons, unitLen_nil]; omega)

/-- `insert_many_by_cursor`, around a stretch `P ++ (c.leaf, e) :: Q` of leaves that contains the leaf of the cursor and its
neighbours: what lies behind moves by the total length of the data, in whatever order they end up (C24). -/
theorem C66_insert_many {B : Trait E C D} {A : Law B} {cont : E → List X} (K : ContentLaw B A.okE cont) {m : Fill}
    {s : Tree E C} {c : Cursor} {U P Q V : List (Nat × E)} {e : E} {data : List E}
    (hm : 1 ≤ m.lo ∧ m.lo + m.d ≤ 5) (hi : Inv A m s) (hes : (abs s).es = U ++ P ++ (c.leaf, e) :: (Q ++ V))
    (hP : P = [] → U = []) (hQ : Q = [] → V = []) (ho : c.offset ≤ B.rleLen e) (hok : ∀ d ∈ data, A.okE d) :
    ∃ s', insertMany B s (some c) data = .ok s' ∧ Inv A m s' ∧ Moves B U V 0 (data.map B.rleLen).sum (abs s) (abs s') := by
  obtain ⟨s', h1, h2, h3, -⟩ := C24_nothing_lost K hm hi (c := c) (e := e) (by rw [hes]; simp) ho hok
  have hloc : ∃ M, (abs s').es = U ++ M ++ V := by
    by_cases hne : data = []
    · subst hne
      cases h1
      exact ⟨P ++ (c.leaf, e) :: Q, by rw [hes]; simp⟩
    · obtain ⟨data', k1, k2⟩ := mergeAdj_ok A hne hok
      obtain ⟨s'', k3, k4⟩ := insertMany_local K hm hok k1 k2 hi hes hP hQ ho
      rw [h1] at k3
      cases k3
      exact k4
  obtain ⟨M, hM⟩ := hloc
  have nd : ((abs s).es.map Prod.fst).Nodup := hi.nodup
  have nd' : ((abs s').es.map Prod.fst).Nodup := h2.nodup
  have hlen := h3.length_eq
  have hdl : (data.flatMap cont).length = (data.map B.rleLen).sum := by
    rw [List.length_flatMap]
    congr 1
    exact List.map_congr_left fun d hd => K.len d (hok d hd)
  have okE : ∀ x ∈ (abs s).es, A.okE x.2 := hi.okE
  have okE' : ∀ x ∈ (abs s').es, A.okE x.2 := h2.okE
  rw [List.length_append, content_length K okE', content_length K okE, hdl] at hlen
  have hes2 : (abs s).es = U ++ (P ++ (c.leaf, e) :: Q) ++ V := by rw [hes]; simp
  refine ⟨s', h1, h2, ?_⟩
  have hlen : unitLen B (abs s').es = unitLen B (abs s).es + (data.map B.rleLen).sum := hlen
  rw [hM, hes2] at hlen
  rw [hes2] at nd
  rw [hM] at nd'
  rw [show abs s = ⟨(abs s).next, U ++ (P ++ (c.leaf, e) :: Q) ++ V⟩ by rw [← hes2], show abs s' = ⟨(abs s').next, U ++ M ++ V⟩ by rw [← hM]]
  refine moves_of nd nd' ?_
  simp only [unitLen_append] at hlen ⊢
  omega

/-- After an insertion of three bytes in chunk 17 the cursor at byte 1 of chunk 20 has moved from 61 to 64. -/
example : ∃ c sp s', insertByPath ropeTrait ropeSample ⟨17, 1⟩ ⟨[7, 8, 9, 0], 3, 1⟩ = .ok ((c, sp), s') ∧
    posOf ropeTrait (abs ropeSample) ⟨20, 1⟩ = some 61 ∧ posOf ropeTrait (abs s') ⟨20, 1⟩ = some 64 ∧ posOf ropeTrait (abs s') ⟨16, 1⟩ = some 49 := by
  obtain ⟨c, sp, s', h1, -, h2⟩ := C66_insert (ropeContent 4) (m := 5) (s := ropeSample) (cur := ⟨17, 1⟩) (by decide) ropeSample_spec.1
    (e := ⟨[17, 1, 2, 0], 3, 1⟩) (U := (List.range 17).map fun i => (i, ⟨[UInt8.ofNat i, 1, 2, 0], 3, 1⟩))
    (V := (List.range 12).map fun i => (i + 18, ⟨[UInt8.ofNat (i + 18), 1, 2, 0], 3, 1⟩))
    (by rw [ropeSample_spec.2]; rfl) (by decide) (by decide) (data := ⟨[7, 8, 9, 0], 3, 1⟩) ⟨by simp [GapBuf.WF], rfl⟩
  obtain ⟨p, p', h3, h4, h5⟩ := h2.back ⟨20, 1⟩ (by decide)
  obtain ⟨q, h6, h7⟩ := h2.front ⟨16, 1⟩ (by decide)
  have e1 : posOf ropeTrait (abs ropeSample) ⟨20, 1⟩ = some 61 := by rw [ropeSample_spec.2]; decide
  have e2 : posOf ropeTrait (abs ropeSample) ⟨16, 1⟩ = some 49 := by rw [ropeSample_spec.2]; decide
  rw [e1] at h3
  rw [e2] at h6
  cases h3
  cases h6
  have h8 : p' = 64 := by
    have : 61 + 3 = p' + 0 := h5
    omega
  exact ⟨c, sp, s', h1, e1, by rw [h4, h8], h7⟩

/-- The same insertion splits chunk 17: the new bytes are at the cursor returned, byte 0 stays at position 51, and bytes 1 and 2, which
were at 52 and 53, are found in the leaf that was split off, at 55 and 56. -/
example : ∃ s', insertByPath ropeTrait ropeSample ⟨17, 1⟩ ⟨[7, 8, 9, 0], 3, 1⟩ = .ok ((⟨31, 0⟩, [30]), s') ∧
    CursorAt ropeTrait (abs s') ⟨31, 0⟩ 52 ∧ CursorAt ropeTrait (abs s') ⟨17, 0⟩ 51 ∧
    CursorAt ropeTrait (abs ropeSample) ⟨17, 2⟩ 53 ∧ CursorAt ropeTrait (abs s') ⟨30, 0⟩ 55 ∧ CursorAt ropeTrait (abs s') ⟨30, 1⟩ 56 := by
  have hc : (abs ropeSample).es = ((List.range 17).map fun i => (i, (⟨[UInt8.ofNat i, 1, 2, 0], 3, 1⟩ : GapBuf))) ++ ((⟨17, 1⟩ : Cursor).leaf, ⟨[17, 1, 2, 0], 3, 1⟩) ::
      (List.range 12).map fun i => (i + 18, ⟨[UInt8.ofNat (i + 18), 1, 2, 0], 3, 1⟩) := by rw [ropeSample_spec.2]; rfl
  obtain ⟨c, sp, s', h1, -, -, h2⟩ := C66_insert_within (ropeContent 4) (m := 5) (s := ropeSample) (cur := ⟨17, 1⟩) (by decide) ropeSample_spec.1
    hc (by decide) (by decide) (data := ⟨[7, 8, 9, 0], 3, 1⟩) ⟨by simp [GapBuf.WF], rfl⟩
  obtain ⟨c', sp', s'', h3, -, h4⟩ := C03_insert_by_path (m := 5) (s := ropeSample) (cur := ⟨17, 1⟩) (by decide) ropeSample_spec.1
    (e := ⟨[17, 1, 2, 0], 3, 1⟩) (by rw [hc]; simp) (by decide) (by decide) (data := ⟨[7, 8, 9, 0], 3, 1⟩) ⟨by simp [GapBuf.WF], rfl⟩
  rw [h1] at h3
  cases h3
  rw [ropeSample_spec.2] at h4
  have h5 : (c, sp) = (⟨31, 0⟩, [30]) := by injection h4 with h4; exact (congrArg Prod.fst h4).symm
  cases h5
  exact ⟨s', h1, h2.new, (h2.before 0 (by decide)).2, (h2.behind 2 (by decide) (by decide)).1, (h2.behind 1 (by decide) (by decide)).2,
    (h2.behind 2 (by decide) (by decide)).2⟩

example := C66_remove (s := ordSample) (cur := ⟨17, 0⟩) (e := (34, 17)) (m := 6) (by decide) (Or.inl (by decide)) ordSample_spec.1
  (U := (List.range 17).map fun i => (i, (2 * i, i))) (V := (List.range 12).map fun i => (i + 18, (2 * (i + 18), i + 18)))
  (by rw [ordSample_spec.2]; rfl)

/-- After the range from position 10 to 62 is taken out of the sample, the cursor at the start of chunk 25 has moved from 75 to 23. -/
example : ∃ (Y : List (Nat × GapBuf)) (s' : Tree GapBuf Int), drain ropeTrait ropeSample ⟨⟨3, 1⟩, true⟩ ⟨⟨20, 2⟩, true⟩ 2 = .ok ((Y.take 2).map Prod.snd, (Y.drop 2).map Prod.snd, s') ∧
    posOf ropeTrait (abs ropeSample) ⟨25, 0⟩ = some 75 ∧ posOf ropeTrait (abs s') ⟨25, 0⟩ = some 23 := by
  obtain ⟨h, h7, hi⟩ := C18_height ropeSample_spec.1 (by decide) (by rw [ropeSample_spec.2]; decide)
  obtain ⟨Y, s', h', d1, -, d2⟩ := C66_drain (ropeContent 4) (by decide) hi (by rw [ropeSample_spec.2]; decide)
    (a := ⟨3, 1⟩) (b := ⟨20, 2⟩) (i := 10) (j := 62) (ea := ⟨[3, 1, 2, 0], 3, 1⟩) (eb := ⟨[20, 1, 2, 0], 3, 1⟩)
    (Ua := (List.range 3).map fun i => (i, ⟨[UInt8.ofNat i, 1, 2, 0], 3, 1⟩))
    (Va := (List.range 26).map fun i => (i + 4, ⟨[UInt8.ofNat (i + 4), 1, 2, 0], 3, 1⟩))
    (by rw [ropeSample_spec.2]; rfl) (by decide) (by decide)
    (Ub := (List.range 20).map fun i => (i, ⟨[UInt8.ofNat i, 1, 2, 0], 3, 1⟩))
    (Vb := (List.range 9).map fun i => (i + 21, ⟨[UInt8.ofNat (i + 21), 1, 2, 0], 3, 1⟩))
    (by rw [ropeSample_spec.2]; rfl) (by decide) (by decide) (by decide) (by rw [ropeSample_spec.2]; decide) true true 2 (.inl h7)
    (U := (List.range 3).map fun i => (i, ⟨[UInt8.ofNat i, 1, 2, 0], 3, 1⟩))
    (W := (List.range 18).map fun i => (i + 3, ⟨[UInt8.ofNat (i + 3), 1, 2, 0], 3, 1⟩))
    (V := (List.range 9).map fun i => (i + 21, ⟨[UInt8.ofNat (i + 21), 1, 2, 0], 3, 1⟩))
    (by rw [ropeSample_spec.2]; rfl) (by decide) (by decide)
  obtain ⟨p, p', h3, h4, h5⟩ := d2.back ⟨25, 0⟩ (by decide)
  have e1 : posOf ropeTrait (abs ropeSample) ⟨25, 0⟩ = some 75 := by rw [ropeSample_spec.2]; decide
  rw [e1] at h3
  cases h3
  exact ⟨Y, s', d1, e1, by rw [h4, show p' = 23 by omega]⟩

example : ∃ st' l s', update ropeTrait ⟨List.reverse, id, id⟩ wipe 0 ropeSample ⟨3, 1⟩ ⟨20, 2⟩ = .ok (st', l, s') ∧
    posOf ropeTrait (abs s') ⟨2, 1⟩ = some 7 := by
  obtain ⟨h, h7, hi⟩ := C18_height ropeSample_spec.1 (by decide) (by rw [ropeSample_spec.2]; decide)
  obtain ⟨st', l, s', d1, -, d2⟩ := C66_update (C21_rope_diffs 4) (by decide) (.inl (by decide)) hi (ropeContent 4).splitLen (by rw [ropeSample_spec.2]; decide)
    (ho := ⟨List.reverse, id, id⟩) List.reverse_perm (wipe_ok 4) 0
    (a := ⟨3, 1⟩) (b := ⟨20, 2⟩) (ea := ⟨[3, 1, 2, 0], 3, 1⟩) (eb := ⟨[20, 1, 2, 0], 3, 1⟩)
    (Ua := (List.range 3).map fun i => (i, ⟨[UInt8.ofNat i, 1, 2, 0], 3, 1⟩))
    (Va := (List.range 26).map fun i => (i + 4, ⟨[UInt8.ofNat (i + 4), 1, 2, 0], 3, 1⟩))
    (by rw [ropeSample_spec.2]; rfl) (by decide)
    (Ub := (List.range 20).map fun i => (i, ⟨[UInt8.ofNat i, 1, 2, 0], 3, 1⟩))
    (Vb := (List.range 9).map fun i => (i + 21, ⟨[UInt8.ofNat (i + 21), 1, 2, 0], 3, 1⟩))
    (by rw [ropeSample_spec.2]; rfl) (by decide) (by decide) (.inl h7)
    (U := (List.range 3).map fun i => (i, ⟨[UInt8.ofNat i, 1, 2, 0], 3, 1⟩))
    (W := (List.range 18).map fun i => (i + 3, ⟨[UInt8.ofNat (i + 3), 1, 2, 0], 3, 1⟩))
    (V := (List.range 9).map fun i => (i + 21, ⟨[UInt8.ofNat (i + 21), 1, 2, 0], 3, 1⟩))
    (by rw [ropeSample_spec.2]; rfl) (by decide) (by decide)
  obtain ⟨p, h3, h4⟩ := d2.front ⟨2, 1⟩ (by decide)
  have e1 : posOf ropeTrait (abs ropeSample) ⟨2, 1⟩ = some 7 := by rw [ropeSample_spec.2]; decide
  rw [e1] at h3
  cases h3
  exact ⟨st', l, s', d1, h4⟩

/-- chunk 11 of the sample is replaced by three chunks of one byte each, and then by two bytes: the cursor at the start of chunk 20
stays at 60 and moves to 59 -/
example : (∃ b ids s' V1 V2, updateLeaf ropeTrait ropeSample 11 (fun _ => .ok (⟨[11, 0, 0, 0], 1, 3⟩, true, some ⟨[1, 0, 0, 0], 1, 3⟩, some ⟨[2, 0, 0, 0], 1, 3⟩)) = .ok (b, ids, s') ∧
    Inv (ropeLaw 4) 5 s' ∧ chunks 12 18 = V1 ++ V2 ∧ (V1 = [] ∨ ∃ k z, V1 = [(k, z)] ∧ ids = [k]) ∧ Moves ropeTrait (chunks 0 11) V2 3 3 (abs ropeSample) (abs s')) ∧
    ∃ cur ids s', updateLeafBySearch ropeTrait ropeQuery ropeSample 34
      (fun _ _ => .ok (⟨[11, 0, 0, 0], 1, 3⟩, some (-1, some ⟨[9, 0, 0, 0], 1, 3⟩, none))) = .ok (cur, ids, s') ∧
      posOf ropeTrait (abs ropeSample) ⟨20, 0⟩ = some 60 ∧ posOf ropeTrait (abs s') ⟨20, 0⟩ = some 59 := by
  constructor
  · exact C66_update_leaf (ropeContent 4) (s := ropeSample) (l := 11) (e := chunk 11) (m := 5) (by decide) ropeSample_spec.1
      (U := chunks 0 11) (V := chunks 12 18) (ropeSample_at (k := 11) (by decide))
      (e1 := ⟨[11, 0, 0, 0], 1, 3⟩) (n1 := some ⟨[1, 0, 0, 0], 1, 3⟩) (n2 := some ⟨[2, 0, 0, 0], 1, 3⟩) rfl
      ⟨by unfold GapBuf.WF; decide, rfl⟩ (by intro b h; cases h; exact ⟨by unfold GapBuf.WF; decide, rfl⟩) (by intro b h; cases h; exact ⟨by unfold GapBuf.WF; decide, rfl⟩)
      (Or.inl rfl) (by intro h; cases h)
  · obtain ⟨h, h10, hi, hq⟩ := ropeSample_query
    obtain ⟨fnd, -, key⟩ := C66_by_search (by decide) hi h10 hq (U := chunks 0 11) (V := chunks 12 18) (e := chunk 11) (ropeSample_at (k := 11) (by decide))
    obtain ⟨cur, ids, s', k1, -, k3⟩ := key (fun _ _ => .ok (⟨[11, 0, 0, 0], 1, 3⟩, some (-1, some ⟨[9, 0, 0, 0], 1, 3⟩, none))) ⟨[11, 0, 0, 0], 1, 3⟩ (-1) (some ⟨[9, 0, 0, 0], 1, 3⟩) rfl ⟨by unfold GapBuf.WF; decide, rfl⟩
      (by intro a h; cases h; exact ⟨by unfold GapBuf.WF; decide, rfl⟩) (by intro h; cases h) (by exact rope_exact 4 3 [1, 1])
    obtain ⟨p, p', h3, h4, h5⟩ := k3.back ⟨20, 0⟩ (by decide)
    have e1 : posOf ropeTrait (abs ropeSample) ⟨20, 0⟩ = some 60 := by rw [ropeSample_spec.2]; decide
    rw [e1] at h3
    cases h3
    have h5 : 60 + 2 = p' + 3 := h5
    exact ⟨cur, ids, s', k1, e1, by rw [h4, show p' = 59 by omega]⟩

/-- five bytes are inserted in two buffers, one of which goes to the chunk before: the cursor in chunk 20 moves from 61 to 66 -/
example : ∃ s', insertMany ropeTrait ropeSample (some ⟨17, 1⟩) [⟨[7, 0, 0, 0], 1, 3⟩, ⟨[7, 8, 9, 6], 4, 0⟩] = .ok s' ∧
    posOf ropeTrait (abs ropeSample) ⟨20, 1⟩ = some 61 ∧ posOf ropeTrait (abs s') ⟨20, 1⟩ = some 66 := by
  obtain ⟨s', h1, -, h2⟩ := C66_insert_many (ropeContent 4) (m := 5) (s := ropeSample) (c := ⟨17, 1⟩) (by decide) ropeSample_spec.1
    (e := chunk 17) (U := chunks 0 16) (P := [(16, chunk 16)]) (Q := [(18, chunk 18)]) (V := chunks 19 11)
    (by rw [ropeSample_spec.2]; rfl) (by simp) (by simp) (by decide) (data := [⟨[7, 0, 0, 0], 1, 3⟩, ⟨[7, 8, 9, 6], 4, 0⟩])
    (by intro d hd; simp at hd; rcases hd with rfl | rfl <;> exact ⟨by simp [GapBuf.WF], rfl⟩)
  obtain ⟨p, p', h3, h4, h5⟩ := h2.back ⟨20, 1⟩ (by decide)
  have e1 : posOf ropeTrait (abs ropeSample) ⟨20, 1⟩ = some 61 := by rw [ropeSample_spec.2]; decide
  rw [e1] at h3
  cases h3
  have h5 : 61 + 5 = p' + 0 := h5
  exact ⟨s', h1, e1, by rw [h4, show p' = 66 by omega]⟩

end GB

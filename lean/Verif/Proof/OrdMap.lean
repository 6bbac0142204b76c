import Verif.Proof.OrdSearch
import Verif.Props.C04

/-!
# `OrdTreeMap`
-/

namespace GB
open Tree

/-! ## Association lists -/

section
variable {K V : Type} [Ord K] [Std.TransOrd K] {k : K} {v : V} {a b : List (K × V)}

theorem asInsert_gt (h : ∀ x ∈ a, compare k x.1 = .gt) : asInsert k v (a ++ b) = a ++ asInsert k v b := by
  induction a with
  | nil => rfl
  | cons x a ih =>
    simp only [List.cons_append, asInsert, h x (by simp)]
    rw [ih fun y hy => h y (by simp [hy])]

theorem asInsert_lt (h : ∀ x ∈ b, compare k x.1 = .lt) : asInsert k v b = (k, v) :: b := by
  cases b with
  | nil => rfl
  | cons x b => simp only [asInsert, h x (by simp)]

theorem asFind_skip (h : ∀ x ∈ a, compare k x.1 ≠ .eq) : asFind k (a ++ b) = asFind k b := by
  induction a with
  | nil => rfl
  | cons x a ih =>
    simp only [List.cons_append, asFind, if_neg (h x (by simp))]
    exact ih fun y hy => h y (by simp [hy])

theorem asFind_none (h : ∀ x ∈ a, compare k x.1 ≠ .eq) : asFind k a = none := by
  have := asFind_skip (b := []) h
  simpa [asFind] using this

theorem asEvict_at (ha : ∀ x ∈ a, compare k x.1 = .gt) {e : K × V} (he : compare k e.1 = .gt → b = []) :
    asEvict k (a ++ e :: b) = (some e, a ++ b) := by
  induction a with
  | nil =>
    cases b with
    | nil => rfl
    | cons f b => rw [List.nil_append, asEvict, if_neg (fun h => by cases he h)]; rfl
  | cons x a ih =>
    have := ih fun y hy => ha y (List.mem_cons_of_mem _ hy)
    cases hl : a ++ e :: b with
    | nil => simp at hl
    | cons f l => rw [List.cons_append, hl, asEvict, if_pos (ha x List.mem_cons_self), ← hl, this]; rfl

theorem asDelete_skip (h : ∀ x ∈ a, compare k x.1 ≠ .eq) : asDelete k (a ++ b) = a ++ asDelete k b := by
  induction a with
  | nil => rfl
  | cons x a ih =>
    simp only [List.cons_append, asDelete, if_neg (h x (by simp))]
    rw [ih fun y hy => h y (by simp [hy])]

omit [Std.TransOrd K] in
theorem KeySorted.sub (h : KeySorted b) (hs : a.Sublist b) : KeySorted a := List.Pairwise.sublist hs h

/-- inserting keeps the keys sorted -/
theorem asInsert_sorted : ∀ {l : List (K × V)}, KeySorted l → KeySorted (asInsert k v l) := by
  intro l
  induction l with
  | nil => intro _; exact List.pairwise_singleton _ _
  | cons x l ih =>
    intro h
    obtain ⟨h1, h2⟩ := List.pairwise_cons.mp h
    simp only [asInsert]
    split
    · next hc =>
      refine List.pairwise_cons.mpr ⟨?_, h⟩
      intro y hy
      rcases List.mem_cons.mp hy with rfl | hy
      · exact hc
      · exact Std.TransCmp.lt_trans hc (h1 y hy)
    · exact List.pairwise_cons.mpr ⟨fun y hy => h1 y hy, h2⟩
    · next hc =>
      refine List.pairwise_cons.mpr ⟨?_, ih h2⟩
      intro y hy
      have : ∀ (l : List (K × V)), (∀ z ∈ l, compare x.1 z.1 = .lt) → ∀ y ∈ asInsert k v l, compare x.1 y.1 = .lt := by
        intro l
        induction l with
        | nil =>
          intro _ y hy
          have : y = (k, v) := by simpa [asInsert] using hy
          subst this
          exact Std.OrientedCmp.lt_of_gt hc
        | cons z l ih2 =>
          intro hz y hy
          simp only [asInsert] at hy
          split at hy
          · rcases List.mem_cons.mp hy with rfl | hy
            · exact Std.OrientedCmp.lt_of_gt hc
            · exact hz y hy
          · rcases List.mem_cons.mp hy with rfl | hy
            · exact hz z (by simp)
            · exact hz y (by simp [hy])
          · rcases List.mem_cons.mp hy with rfl | hy
            · exact hz _ (by simp)
            · exact ih2 (fun w hw => hz w (by simp [hw])) y hy
      exact this l h1 y hy

end

/-! ## The map -/

section
variable {K V : Type}

/-- the bindings of a map, in order -/
def OrdMap.assoc (m : OrdMap K V) : List (K × V) := (abs m.tree).es.map Prod.snd

/-- invariant of the map -/
structure OrdMap.Ok [Ord K] (m : OrdMap K V) : Prop where
  tree : Inv (ordLaw K V) 6 m.tree
  sorted : KeySorted m.assoc
  len : m.len = m.assoc.length

variable {E C D : Type}

theorem nextSameLevelIn_addLf (s : Tree E C) (L : LeafNode E) : ∀ (n x : Nat), nextSameLevelIn n (addLf s L) x = nextSameLevelIn n s x := by
  intro n
  induction n with
  | zero => intro x; rfl
  | succ n ih =>
    intro x
    simp only [nextSameLevelIn, ih]
    rfl

theorem getLf_addLf (s : Tree E C) (L : LeafNode E) {l : Nat} {x : LeafNode E} (hl : s.lf.get l = some x) : (addLf s L).lf.get l = some x := by
  simp only [addLf, Arena.get_insert]
  rw [if_neg, hl]
  intro e
  subst e
  rw [Arena.get_ge _ (Nat.le_refl _)] at hl
  cases hl

theorem nextElem_addLf (s : Tree E C) (L : LeafNode E) {pos : Cursor} {x : LeafNode E} (hl : s.lf.get pos.leaf = some x) :
    nextElem (addLf s L) pos = nextElem s pos := by
  have h1 : (addLf s L).getLf pos.leaf = .ok x := getLf_ok (getLf_addLf s L hl)
  have h2 : s.getLf pos.leaf = .ok x := getLf_ok hl
  simp only [nextElem, nextSameLevelLeaf, h1, h2, bind_ok, nextSameLevelIn_addLf]
  rfl

/-- `split_leaf_if_needed` at an end of a leaf, right after a leaf has been allocated -/
theorem splitLeaf_addLf {B : Trait E C D} {s : Tree E C} {lvl : Nat → Nat} {h : Nat} (w : WF s lvl h) (ne : NE s) {pos : Cursor} {e : E} {q i : Nat} {N : Node C}
    (hL : s.lf.get pos.leaf = some ⟨e, q⟩) (hed : Edge s q i (.leaf pos.leaf)) (hN : s.inn.get q = some N) (L : LeafNode E)
    (hoff : pos.offset = 0 ∨ pos.offset = B.rleLen e) :
    ∃ info, splitLeafIfNeeded B (addLf s L) pos = .ok (info, addLf s L) ∧ info.parentIdx = q ∧
      info.insertSlot = if pos.offset = 0 then i else i + 1 := by
  have hfi := findIdx_leaf w hed
  rw [chs_of hN] at hfi
  have hln := leftNb_ok hN hed
  have h1 : (addLf s L).getLf pos.leaf = .ok ⟨e, q⟩ := getLf_ok (getLf_addLf s L hL)
  have h2 : (addLf s L).getIn q = .ok N := getIn_ok hN
  simp only [splitLeafIfNeeded, splitLeafIfNeededF, h1, h2, bind_ok, hfi, unwrap, hln]
  by_cases h0 : pos.offset = 0
  · simp only [if_pos h0, pure_ok]
    exact ⟨_, rfl, rfl, rfl⟩
  · have hr : pos.offset = B.rleLen e := by rcases hoff with h | h; exact absurd h h0; exact h
    obtain ⟨u, v, -, hnp⟩ := newPos_ok w ne hed hN
    simp only [pure_ok] at hnp
    simp only [if_neg h0, if_pos hr, nextElem_addLf s L hL, pure_ok]
    cases hc : N.children[i + 1]? with
    | some c => exact ⟨_, rfl, rfl, rfl⟩
    | none =>
      rw [hc] at hnp
      simp only [hnp, bind_ok]
      exact ⟨_, rfl, rfl, rfl⟩

/-- Replacing an element by one with the same cache. -/
theorem Good.same_cache {B : Trait E C D} {A : Law B} {s : Tree E C} {lvl : Nat → Nat} {h : Nat} (g : Good A s lvl h) {l q : Nat} {e e' : E}
    (hl : s.lf.get l = some ⟨e, q⟩) (hok : A.okE e') (hc : B.elemCache e' = B.elemCache e) :
    Good A (s.setLf l ⟨e', q⟩) lvl h ∧ SameShape s (s.setLf l ⟨e', q⟩) ∧
      (∀ k, elm (s.setLf l ⟨e', q⟩) k = if k = l then some e' else elm s k) := by
  have sh : SameShape s (s.setLf l ⟨e', q⟩) := SameShape.setLf hl rfl
  have hel : ∀ k, elm (s.setLf l ⟨e', q⟩) k = if k = l then some e' else elm s k :=
    fun k => elm_setLf s (by rw [lpar_of hl]; simp) ⟨e', q⟩ k
  refine ⟨⟨sh.wf g.wf, ?_, g.cok, g.rok, ?_⟩, sh, hel⟩
  · intro p c hcm hx
    have := g.cinv p c hcm hx
    unfold EntryOK at *
    cases ha : c.arena with
    | internal y => rw [ha] at this; exact this
    | leaf k =>
      rw [ha] at this
      intro x hxe
      rw [hel] at hxe
      split at hxe
      · next hk =>
        subst hk
        cases hxe
        rw [hc]
        exact this e (by simp [elm, hl])
      · exact this x hxe
  · intro k x hx
    rw [hel] at hx
    split at hx
    · cases hx; exact hok
    · exact g.okE k x hx

variable [Ord K] [Std.TransOrd K]

/-- `OrdTreeMap::insert` -/
theorem OrdMap.insert_spec {m : OrdMap K V} (hm : m.Ok) (k : K) (v : V) :
    ∃ m', m.insert k v = .ok m' ∧ m'.Ok ∧ m'.assoc = asInsert k v m.assoc := by
  obtain ⟨t, n⟩ := m
  obtain ⟨hi, hs, hn⟩ := hm
  obtain ⟨h, hi'⟩ := id hi
  have ne := hi'.ne (by decide)
  have habs := abs_nil hi'
  obtain ⟨⟨lvl, g⟩, sz⟩ := id hi'
  by_cases hne : order t = []
  · -- the first binding
    have hes : (abs t).es = [] := habs.mpr hne
    obtain ⟨c, s', h1, h2, h3⟩ := C01_push (e := (k, v)) (by decide) hi trivial
    simp only [specPush, hes, List.getLast?_nil, Except.ok.injEq, Prod.mk.injEq] at h3
    refine ⟨⟨s', n + 1⟩, ?_, ?_⟩
    · simp only [OrdMap.insert, query_empty g.wf ne hne, bind_ok, h1, pure_ok]
    · have ha : OrdMap.assoc ⟨s', n + 1⟩ = [(k, v)] := by
        simp only [OrdMap.assoc, ← h3.2, List.nil_append, List.map_cons, List.map_nil]
      have hb : OrdMap.assoc ⟨t, n⟩ = [] := by simp [OrdMap.assoc, hes]
      refine ⟨⟨h2, ?_, ?_⟩, ?_⟩
      · rw [ha]; exact List.pairwise_singleton _ _
      · rw [hb] at hn; rw [ha]; simp only [List.length_nil] at hn; simp [hn]
      · rw [ha, hb]; rfl
  · obtain ⟨U, l, e, W, hent, hU, hW, hq, hlast⟩ := ordQuery_spec g ne hne hs k
    have hassoc : OrdMap.assoc ⟨t, n⟩ = U.map Prod.snd ++ e :: W.map Prod.snd := by
      simp only [OrdMap.assoc, abs, hent, List.map_append, List.map_cons]
    have hU' : ∀ x ∈ U.map Prod.snd, compare k x.1 = .gt := by
      intro x hx
      obtain ⟨y, hy, rfl⟩ := List.mem_map.mp hx
      exact hU y hy
    have hW' : ∀ x ∈ W.map Prod.snd, compare k x.1 = .lt := by
      intro x hx
      obtain ⟨y, hy, rfl⟩ := List.mem_map.mp hx
      exact hW y hy
    obtain ⟨u0, v0, p1, -, -, hle⟩ := entries_split g.wf hent
    obtain ⟨e2, q, i, N, hL, he2, hed, hN, hl1, hiN⟩ := leaf_get g.wf (l := l) (by rw [p1]; simp)
    rw [hle] at he2
    cases he2
    by_cases heq : compare k e.1 = .eq
    · -- the key is present
      obtain ⟨g', sh, hel⟩ := g.same_cache hL (e' := (e.1, v)) trivial rfl
      have hent' := entries_upd g.wf sh.order hel hent
      have ha : OrdMap.assoc ⟨t.setLf l ⟨(e.1, v), q⟩, n⟩ = U.map Prod.snd ++ (e.1, v) :: W.map Prod.snd := by
        simp only [OrdMap.assoc, abs, hent', List.map_append, List.map_cons]
      have hins : asInsert k v (OrdMap.assoc ⟨t, n⟩) = U.map Prod.snd ++ (e.1, v) :: W.map Prod.snd := by
        rw [hassoc, asInsert_gt hU']
        simp only [asInsert, heq]
      refine ⟨⟨t.setLf l ⟨(e.1, v), q⟩, n⟩, ?_, ⟨⟨h, ⟨lvl, g'⟩, SzX.congr sh sz⟩, ?_, ?_⟩, ?_⟩
      · simp only [OrdMap.insert, hq, bind_ok, heq, decide_true, Bool.true_eq_false, if_false, getLf_ok hL, pure_ok]
      · rw [ha, ← hins]; exact asInsert_sorted hs
      · rw [ha]; rw [hassoc] at hn; simpa using hn
      · rw [ha, hins]
    · -- a new binding
      have hoff : (if compare k e.1 = .gt then 1 else 0) = 0 ∨ (if compare k e.1 = .gt then 1 else 0) = (ordTrait K V).rleLen e := by
        split
        · exact Or.inr rfl
        · exact Or.inl rfl
      obtain ⟨info, hsl, hpi, hslot⟩ := splitLeaf_addLf (B := ordTrait K V) g.wf ne (pos := ⟨l, if compare k e.1 = .gt then 1 else 0⟩) hL hed hN ⟨(k, v), q⟩ hoff
      have hlt := hiN
      have szq := (sz q (edge_live hed) (fun h => h)).1
      rw [chs_of hN] at szq
      obtain ⟨s3, lvl', h', e3, g3, sz3, -, -, hr, hlf, hel, u, v', o1, o2, o3, o4⟩ :=
        link_finish (by decide) (by decide) g sz hN hl1 (by left; rw [chs_of hN]; intro e; rw [e] at hlt; simp at hlt)
          (j := info.insertSlot) (data := (k, v)) trivial (.internal q) (Or.inl rfl) none (Or.inl rfl)
      obtain ⟨n1, n2⟩ := entries_ins g.wf o1 o2 (lpar_fresh t) hel
      have nd := order_nodup g.wf
      have hrun : OrdMap.insert ⟨t, n⟩ k v = .ok ⟨s3, n + 1⟩ := by
        have hg : (addLf t ⟨(k, v), q⟩).getIn q = .ok N := getIn_ok hN
        have hdec : decide (compare k e.1 = .eq) = false := decide_eq_false heq
        have hvi := vinsert_ok (l := N.children) (i := info.insertSlot) (⟨.leaf t.lf.items.length, (ordTrait K V).elemCache (k, v)⟩ : Child (OrdCache K))
          (by rw [hslot]; exact (show ∀ o : Nat, (if o = 0 then i else i + 1) ≤ N.children.length by intro o; split <;> omega) _) szq
        simp only [OrdMap.insert, hq, bind_ok, hdec, if_true, getLf_ok hL, allocLeafChild_eq, hsl, hpi, hg, hvi]
        obtain ⟨s2, w1, w2⟩ := bind_inv e3
        simp only [linkLeaf] at w1
        have w1' := w1
        simp only [ordTrait] at w1'
        simp only [ordTrait]
        rw [w1']
        simp only [bind_ok, Node.isFull, decide_eq_true_eq]
        have hlen : ∀ y : Child (OrdCache K), (N.children.take info.insertSlot ++ y :: N.children.drop info.insertSlot).length =
            N.children.length + 1 := by
          intro y
          conv => rhs; rw [← List.take_append_drop info.insertSlot N.children]
          simp only [List.length_append, List.length_cons]
          omega
        rw [hlen]
        simp only [ordTrait] at w2
        rw [w2]
        rfl
      have hentry : ∃ U' W', U' ++ (t.lf.items.length, (k, v)) :: W' = entries s3 ∧ U' ++ W' = entries t ∧
          (∀ x ∈ U'.map Prod.snd, compare k x.1 = .gt) ∧ (∀ x ∈ W'.map Prod.snd, compare k x.1 = .lt) := by
        refine ⟨entriesOf t u, entriesOf t v', n2.symm, n1.symm, ?_⟩
        rw [p1] at nd
        obtain ⟨u1, v1, q1, rfl, rfl, -⟩ := entries_split g.wf hent
        rw [p1] at q1
        obtain ⟨rfl, rfl⟩ := nodup_append_cons_inj q1 nd
        by_cases hgt : compare k e.1 = .gt
        · rw [if_pos hgt] at hslot
          simp only [if_neg (show ¬ (1 = 0) by decide)] at hslot
          obtain ⟨u', rfl⟩ := o4 l (by omega) (by rw [hslot]; exact hed)
          rw [p1, List.append_assoc] at o1
          obtain ⟨rfl, h4⟩ := nodup_append_cons_inj o1 nd
          subst h4
          rw [entriesOf_append, entriesOf_cons hle]
          refine ⟨?_, hW'⟩
          intro x hx
          rw [List.map_append] at hx
          rcases List.mem_append.mp hx with hx | hx
          · exact hU' x hx
          · have : x = e := by simpa using hx
            rw [this]; exact hgt
        · rw [if_neg hgt] at hslot
          simp only [if_true] at hslot
          obtain ⟨v'', rfl⟩ := o3 l (by rw [hslot]; exact hed)
          rw [p1] at o1
          obtain ⟨rfl, rfl⟩ := nodup_append_cons_inj o1 nd
          rw [entriesOf_cons hle]
          refine ⟨hU', ?_⟩
          intro x hx
          rcases List.mem_cons.mp hx with hx | hx
          · rw [hx]
            show compare k e.1 = .lt
            cases hc : compare k e.1 with
            | lt => rfl
            | eq => exact absurd hc heq
            | gt => exact absurd hc hgt
          · exact hW' x hx
      obtain ⟨U', W', k1, k2, k3, k4⟩ := hentry
      have ha : OrdMap.assoc ⟨s3, n + 1⟩ = U'.map Prod.snd ++ (k, v) :: W'.map Prod.snd := by
        simp only [OrdMap.assoc, abs, ← k1, List.map_append, List.map_cons]
      have hb : OrdMap.assoc ⟨t, n⟩ = U'.map Prod.snd ++ W'.map Prod.snd := by
        simp only [OrdMap.assoc, abs, ← k2, List.map_append]
      have hins : asInsert k v (OrdMap.assoc ⟨t, n⟩) = OrdMap.assoc ⟨s3, n + 1⟩ := by
        rw [ha, hb, asInsert_gt k3, asInsert_lt k4]
      refine ⟨⟨s3, n + 1⟩, hrun, ⟨⟨h', ⟨lvl', g3⟩, sz3⟩, ?_, ?_⟩, hins.symm⟩
      · rw [← hins]; exact asInsert_sorted hs
      · rw [ha]; rw [hb] at hn
        simp only [List.length_append, List.length_cons] at hn ⊢
        omega

/-- `OrdTreeMap::delete`: it removes the entry at which the search ends -/
theorem OrdMap.delete_spec {m : OrdMap K V} (hm : m.Ok) (k : K) :
    (m.assoc = [] ∧ m.delete k = .ok (none, m)) ∨
    ∃ a e b m', m.assoc = a ++ e :: b ∧ (∀ x ∈ a, compare k x.1 = .gt) ∧ (∀ x ∈ b, compare k x.1 = .lt) ∧
      m.delete k = .ok (some e, m') ∧ m'.Ok ∧ m'.assoc = a ++ b ∧ (compare k e.1 = .gt → b = []) := by
  obtain ⟨t, n⟩ := m
  obtain ⟨hi, hs, hn⟩ := hm
  obtain ⟨h, hi'⟩ := id hi
  have ne := hi'.ne (by decide)
  have habs := abs_nil hi'
  obtain ⟨⟨lvl, g⟩, sz⟩ := id hi'
  by_cases hne : order t = []
  · left
    have hes : (abs t).es = [] := habs.mpr hne
    refine ⟨by simp [OrdMap.assoc, hes], ?_⟩
    simp only [OrdMap.delete, query_empty g.wf ne hne, bind_ok, pure_ok]
  · right
    obtain ⟨U, l, e, W, hent, hU, hW, hq, hlast⟩ := ordQuery_spec g ne hne hs k
    have hassoc : OrdMap.assoc ⟨t, n⟩ = U.map Prod.snd ++ e :: W.map Prod.snd := by
      simp only [OrdMap.assoc, abs, hent, List.map_append, List.map_cons]
    obtain ⟨s', h1, h2, h3⟩ := C04_remove_leaf (B := ordTrait K V) (cur := ⟨l, if compare k e.1 = .gt then 1 else 0⟩) (by decide) (Or.inl (by decide)) hi hent
    have ha : OrdMap.assoc ⟨s', n - 1⟩ = U.map Prod.snd ++ W.map Prod.snd := by
      simp only [OrdMap.assoc, h3, List.map_append]
    have hpos : 0 < n := by
      have : n = (OrdMap.assoc ⟨t, n⟩).length := hn
      rw [hassoc, List.length_append, List.length_cons] at this
      omega
    refine ⟨U.map Prod.snd, e, W.map Prod.snd, ⟨s', n - 1⟩, hassoc, ?_, ?_, ?_, ⟨h2, ?_, ?_⟩, ha, fun hc => by rw [hlast hc]; rfl⟩
    · intro x hx
      obtain ⟨y, hy, rfl⟩ := List.mem_map.mp hx
      exact hU y hy
    · intro x hx
      obtain ⟨y, hy, rfl⟩ := List.mem_map.mp hx
      exact hW y hy
    · simp only [OrdMap.delete, hq, bind_ok, h1, hpos, assertM_triv, pure_ok]
    · rw [ha]
      rw [hassoc] at hs
      apply hs.sub
      exact List.Sublist.append_left (List.sublist_cons_self _ _) _
    · rw [ha]
      have : n = (OrdMap.assoc ⟨t, n⟩).length := hn
      rw [hassoc] at this
      simp only [List.length_append, List.length_cons] at this ⊢
      omega

end
end GB

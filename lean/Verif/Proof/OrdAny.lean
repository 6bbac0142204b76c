import Verif.Proof.OrdMap
import Verif.Proof.OrdHist
import Verif.Spec.Lawless

/-!
# `OrdTreeMap` over a comparison without laws
-/

namespace GB
open Tree

section
variable {α : Type}

theorem binSearchF_range (f : α → M Ordering) (l : List α) (hf : ∀ x ∈ l, ∃ o, f x = .ok o) :
    ∀ (n a b : Nat), b - a < n → a ≤ b → b ≤ l.length →
      (∃ i, binSearchF f l n a b = .ok (.inl i) ∧ i < l.length) ∨ (∃ i, binSearchF f l n a b = .ok (.inr i) ∧ i ≤ l.length) := by
  intro n
  induction n with
  | zero => intro a b hn; omega
  | succ n ih =>
    intro a b hn hab hbl
    simp only [binSearchF]
    by_cases hlt' : a < b
    · rw [if_pos hlt']
      obtain ⟨x, hx⟩ : ∃ x, l[a + (b - a) / 2]? = some x := ⟨_, List.getElem?_eq_getElem (by omega)⟩
      obtain ⟨o, ho⟩ := hf x (List.mem_of_getElem? hx)
      simp only [vget_ok hx, bind_ok, ho]
      cases o with
      | lt => exact ih _ b (by omega) (by omega) hbl
      | gt => exact ih a _ (by omega) (by omega) (by omega)
      | eq => exact Or.inl ⟨_, rfl, by omega⟩
    · rw [if_neg hlt']
      exact Or.inr ⟨a, rfl, by omega⟩

theorem binSearch_range : SearchInRange (binSearch (α := α)) := by
  intro f l hf
  exact binSearchF_range f l hf (l.length + 1) 0 l.length (by omega) (by omega) (Nat.le_refl _)

theorem binSearch2F_range (f : α → M Ordering) (l : List α) (hf : ∀ x ∈ l, ∃ o, f x = .ok o) :
    ∀ (n base size : Nat), size < n → 0 < size → base + size ≤ l.length →
      ∃ r, binSearch2F f l n base size = .ok r ∧ r < l.length := by
  intro n
  induction n with
  | zero => intro base size h; omega
  | succ n ih =>
    intro base size h1 h2 h3
    rw [binSearch2F]
    split
    · have hm : base + size / 2 < l.length := by omega
      have hx : l[base + size / 2]? = some l[base + size / 2] := List.getElem?_eq_getElem hm
      obtain ⟨o, ho⟩ := hf _ (List.mem_of_getElem? hx)
      simp only [vget_ok hx, bind_ok, ho]
      apply ih
      · omega
      · omega
      · split <;> omega
    · exact ⟨base, rfl, by omega⟩

theorem binSearch2_range : SearchInRange (binSearch2 (α := α)) := by
  intro f l hf
  rw [binSearch2]
  split
  · exact Or.inr ⟨0, rfl, by omega⟩
  · next hl =>
    obtain ⟨r, h1, h2⟩ := binSearch2F_range f l hf (l.length + 1) 0 l.length (by omega) (by omega) (by omega)
    have hx : l[r]? = some l[r] := List.getElem?_eq_getElem h2
    obtain ⟨o, ho⟩ := hf _ (List.mem_of_getElem? hx)
    simp only [h1, bind_ok, vget_ok hx, ho]
    split
    · exact Or.inl ⟨r, rfl, h2⟩
    · refine Or.inr ⟨_, rfl, ?_⟩
      split <;> omega

end

section
variable {K V : Type}

/-- what remains of the invariant of the map: nothing about the order of the keys -/
structure OrdMap.Sound (m : OrdMap K V) : Prop where
  tree : Inv (ordLaw K V) 6 m.tree
  len : m.len = m.assoc.length

theorem OrdMap.new_sound : (OrdMap.new : OrdMap K V).Sound := by
  have h := new_entries (ordTrait K V)
  have ha : (OrdMap.new : OrdMap K V).assoc = [] := by
    simp only [OrdMap.assoc, OrdMap.new, h, List.map_nil]
  exact ⟨⟨1, new_inv _ 6⟩, by rw [ha]; rfl⟩

theorem OrdMap.Sound.low {m : OrdMap K V} (hm : m.Sound) (hn : m.len < 20155392) : ∃ h, h ≤ 9 ∧ InvH (ordLaw K V) 6 h m.tree := by
  obtain ⟨h, hi⟩ := hm.tree
  refine ⟨h, ?_, hi⟩
  apply Classical.byContradiction
  intro hh
  obtain ⟨lvl, g⟩ := hi.ex
  have h1 : 2 * 6 ^ (h - 1) ≤ _ := height_bound g.wf hi.sz (by omega)
  have h2 : m.len = (entries m.tree).length := by rw [hm.len, OrdMap.assoc, List.length_map]; rfl
  have h3 : 6 ^ 9 ≤ 6 ^ (h - 1) := Nat.pow_le_pow_right (by decide) (by omega)
  have h4 : 6 ^ 9 = 10077696 := by decide
  omega

theorem OrdMap.Sound.iter {m : OrdMap K V} (hm : m.Sound) (hn : m.len < 20155392) : m.iter = .ok m.assoc := by
  obtain ⟨h, hh, hi⟩ := hm.low hn
  obtain ⟨lvl, g⟩ := hi.ex
  exact GB.iter_spec g.wf (hi.ne (by decide)) hh

theorem blockCache_ord {b : List (Nat × (K × V))} (hb : b ≠ []) : ∃ x y, blockCache (ordLaw K V) b = some (x, y) := by
  obtain ⟨x, b, rfl⟩ := List.exists_cons_of_ne_nil hb
  obtain ⟨a, z, -, -, h3⟩ := ordTotal_some ((b.map fun x : Nat × (K × V) => (some (x.2.1, x.2.1) : OrdCache K))) (some (x.2.1, x.2.1)) (by
    intro c hc
    rcases List.mem_cons.mp hc with rfl | hc
    · rfl
    · obtain ⟨y, -, rfl⟩ := List.mem_map.mp hc; rfl)
  exact ⟨_, _, h3⟩

variable [Ord K] {s : Tree (K × V) (OrdCache K)} {lvl : Nat → Nat} {h : Nat}

/-- The search ends somewhere. -/
theorem ordQuery_lawless {search : SearchFn (Child (OrdCache K))} (hse : SearchInRange search) (g : Good (ordLaw K V) s lvl h) (ne : NE s)
    (hne : order s ≠ []) (k : K) :
    ∃ U l e W found, entries s = U ++ (l, e) :: W ∧ (found = true → compare k e.1 = .eq) ∧
      query (ordQueryWith V search) s k = .ok (some ⟨⟨l, if compare k e.1 = .gt then 1 else 0⟩, found⟩) := by
  obtain ⟨U, l, e, W, fd, found, h1, -, h5⟩ := queryWithFinder_spec g ne hne (ordQueryWith V search) k
    (fun _ _ _ _ _ => True) trivial
    (by
      intro cs bs U W fd found hbs hbn hcs hent _
      have hl : cs.length = bs.length := by
        have := congrArg List.length hcs
        simpa using this
      have hpos : 0 < cs.length := by
        have : bs.length ≠ 0 := fun e => hbs (List.length_eq_zero_iff.mp e)
        omega
      have hsplit : ∀ (i : Nat), i < bs.length → ∃ b, bs = bs.take i ++ b :: bs.drop (i + 1) ∧ i = (bs.take i).length := by
        intro i hi
        refine ⟨bs[i], get_split (List.getElem?_eq_getElem hi), ?_⟩
        rw [List.length_take]; omega
      have htot : ∀ c ∈ cs, ∃ o, ordCmpChild k c = .ok o := by
        intro c hc
        obtain ⟨i, hi⟩ := List.mem_iff_getElem?.mp hc
        have := congrArg (fun l => l[i]?) hcs
        simp only [List.getElem?_map, hi, Option.map_some] at this
        obtain ⟨b, hb, hbc⟩ := Option.map_eq_some_iff.mp this.symm
        obtain ⟨x, y, hxy⟩ := blockCache_ord (hbn b (List.mem_of_getElem? hb))
        rw [hxy] at hbc
        simp only [ordCmpChild, ← hbc, unwrap_some, bind_ok]
        split
        · exact ⟨_, rfl⟩
        · split <;> exact ⟨_, rfl⟩
      rcases hse (ordCmpChild k) cs htot with ⟨i, e1, e2⟩ | ⟨i, e1, e2⟩
      · obtain ⟨b, hsp, hlen⟩ := hsplit i (by omega)
        refine ⟨⟨i, 0, true⟩, (), bs.take i, b, bs.drop (i + 1), ?_, hsp, hlen, trivial⟩
        simp only [ordQueryWith, ordFindNodeWith, e1, bind_ok, pure_ok]
      · obtain ⟨b, hsp, hlen⟩ := hsplit (min i (cs.length - 1)) (by omega)
        refine ⟨⟨min i (cs.length - 1), if i = cs.length then 1 else 0, false⟩, (), bs.take (min i (cs.length - 1)), b, bs.drop (min i (cs.length - 1) + 1), ?_, hsp, hlen, trivial⟩
        simp only [ordQueryWith, ordFindNodeWith, e1, bind_ok, pure_ok, hpos, assertM_triv])
  refine ⟨U, l, e, W, found && decide (compare k e.1 = .eq), h1, by simp, ?_⟩
  rw [query, h5]
  simp only [ordQueryWith, ordConfirm, bind_ok, pure_ok]
  cases hc : compare k e.1 <;> simp

theorem OrdMap.insert_lawless {search : SearchFn (Child (OrdCache K))} (hse : SearchInRange search) {m : OrdMap K V} (hm : m.Sound) (k : K) (v : V) :
    ∃ m', m.insertWith search k v = .ok m' ∧ m'.Sound ∧ LawlessStep compare m.assoc none m'.assoc (.insert k v) := by
  obtain ⟨t, n⟩ := m
  obtain ⟨hi, hn⟩ := hm
  obtain ⟨h, hi'⟩ := id hi
  have ne := hi'.ne (by decide)
  have habs := abs_nil hi'
  obtain ⟨⟨lvl, g⟩, sz⟩ := id hi'
  by_cases hne : order t = []
  · -- the first binding
    have hes : (abs t).es = [] := habs.mpr hne
    obtain ⟨c, s', h1, h2, h3⟩ := C01_push (e := (k, v)) (by decide) hi trivial
    simp only [specPush, hes, List.getLast?_nil, Except.ok.injEq, Prod.mk.injEq] at h3
    have ha : OrdMap.assoc ⟨s', n + 1⟩ = [(k, v)] := by
      simp only [OrdMap.assoc, ← h3.2, List.nil_append, List.map_cons, List.map_nil]
    have hb : OrdMap.assoc ⟨t, n⟩ = [] := by simp [OrdMap.assoc, hes]
    refine ⟨⟨s', n + 1⟩, ?_, ⟨h2, ?_⟩, rfl, Or.inl ⟨hb, ha⟩⟩
    · simp only [OrdMap.insertWith, query_empty g.wf ne hne, bind_ok, h1, pure_ok]
    · rw [hb] at hn; rw [ha]; simp only [List.length_nil] at hn; simp [hn]
  · obtain ⟨U, l, e, W, found, hent, hfe, hq⟩ := ordQuery_lawless hse g ne hne k
    have hassoc : OrdMap.assoc ⟨t, n⟩ = U.map Prod.snd ++ e :: W.map Prod.snd := by
      simp only [OrdMap.assoc, abs, hent, List.map_append, List.map_cons]
    obtain ⟨u0, v0, p1, -, -, hle⟩ := entries_split g.wf hent
    obtain ⟨e2, q, i, N, hL, he2, hed, hN, hl1, hiN⟩ := leaf_get g.wf (l := l) (by rw [p1]; simp)
    rw [hle] at he2
    cases he2
    cases hfd : found with
    | true =>
      subst hfd
      have heq := hfe rfl
      obtain ⟨g', sh, hel⟩ := g.same_cache hL (e' := (e.1, v)) trivial rfl
      have hent' := entries_upd g.wf sh.order hel hent
      have ha : OrdMap.assoc ⟨t.setLf l ⟨(e.1, v), q⟩, n⟩ = U.map Prod.snd ++ (e.1, v) :: W.map Prod.snd := by
        simp only [OrdMap.assoc, abs, hent', List.map_append, List.map_cons]
      refine ⟨⟨t.setLf l ⟨(e.1, v), q⟩, n⟩, ?_, ⟨⟨h, ⟨lvl, g'⟩, SzX.congr sh sz⟩, ?_⟩, rfl, Or.inr (Or.inr (Or.inr ⟨_, e, _, hassoc, heq, ha⟩))⟩
      · simp only [OrdMap.insertWith, hq, bind_ok, Bool.true_eq_false, if_false, getLf_ok hL, pure_ok]
      · rw [ha]; rw [hassoc] at hn; simpa using hn
    | false =>
      subst hfd
      have hoff : (if compare k e.1 = .gt then 1 else 0) = 0 ∨ (if compare k e.1 = .gt then 1 else 0) = (ordTrait K V).rleLen e := by
        split
        · exact Or.inr rfl
        · exact Or.inl rfl
      obtain ⟨info, hsl, hpi, hslot⟩ := splitLeaf_addLf (B := ordTrait K V) g.wf ne (pos := ⟨l, if compare k e.1 = .gt then 1 else 0⟩) hL hed hN ⟨(k, v), q⟩ hoff
      have hlt := hiN
      have szq := (sz q (edge_live hed) (fun h => h)).1
      rw [chs_of hN] at szq
      obtain ⟨s3, lvl', h', e3, g3, sz3, -, -, hr, hlf, hel, u, v', o1, o2, o3, o4⟩ :=
        link_finish (by decide) (by decide) g sz hN hl1 (by left; rw [chs_of hN]; intro e; rw [e] at hlt; simp at hlt)
          (j := info.insertSlot) (data := (k, v)) trivial (.internal q) (Or.inl rfl) none (Or.inl rfl)
      obtain ⟨n1, n2⟩ := entries_ins g.wf o1 o2 (lpar_fresh t) hel
      have nd := order_nodup g.wf
      have hrun : OrdMap.insertWith search ⟨t, n⟩ k v = .ok ⟨s3, n + 1⟩ := by
        have hg : (addLf t ⟨(k, v), q⟩).getIn q = .ok N := getIn_ok hN
        have hvi := vinsert_ok (l := N.children) (i := info.insertSlot) (⟨.leaf t.lf.items.length, (ordTrait K V).elemCache (k, v)⟩ : Child (OrdCache K))
          (by rw [hslot]; exact (show ∀ o : Nat, (if o = 0 then i else i + 1) ≤ N.children.length by intro o; split <;> omega) _) szq
        simp only [OrdMap.insertWith, hq, bind_ok, if_true, getLf_ok hL, allocLeafChild_eq, hsl, hpi, hg, hvi]
        obtain ⟨s2, w1, w2⟩ := bind_inv e3
        simp only [linkLeaf] at w1
        have w1' := w1
        simp only [ordTrait] at w1'
        simp only [ordTrait]
        rw [w1']
        simp only [bind_ok, Node.isFull, decide_eq_true_eq]
        have hlen : ∀ y : Child (OrdCache K), (N.children.take info.insertSlot ++ y :: N.children.drop info.insertSlot).length =
            N.children.length + 1 := by
          intro y
          conv => rhs; rw [← List.take_append_drop info.insertSlot N.children]
          simp only [List.length_append, List.length_cons]
          omega
        rw [hlen]
        simp only [ordTrait] at w2
        rw [w2]
        rfl
      have hst : (compare k e.1 = .gt ∧ OrdMap.assoc ⟨s3, n + 1⟩ = U.map Prod.snd ++ e :: (k, v) :: W.map Prod.snd) ∨
          (compare k e.1 ≠ .gt ∧ OrdMap.assoc ⟨s3, n + 1⟩ = U.map Prod.snd ++ (k, v) :: e :: W.map Prod.snd) := by
        simp only [OrdMap.assoc, abs, n2]
        rw [p1] at nd
        obtain ⟨u1, v1, q1, rfl, rfl, -⟩ := entries_split g.wf hent
        rw [p1] at q1
        obtain ⟨rfl, rfl⟩ := nodup_append_cons_inj q1 nd
        by_cases hgt : compare k e.1 = .gt
        · rw [if_pos hgt] at hslot
          simp only [if_neg (show ¬ (1 = 0) by decide)] at hslot
          obtain ⟨u', rfl⟩ := o4 l (by omega) (by rw [hslot]; exact hed)
          rw [p1, List.append_assoc] at o1
          obtain ⟨rfl, h4⟩ := nodup_append_cons_inj o1 nd
          subst h4
          left
          refine ⟨hgt, ?_⟩
          rw [entriesOf_append, entriesOf_cons hle]
          simp
        · rw [if_neg hgt] at hslot
          simp only [if_true] at hslot
          obtain ⟨v'', rfl⟩ := o3 l (by rw [hslot]; exact hed)
          rw [p1] at o1
          obtain ⟨rfl, rfl⟩ := nodup_append_cons_inj o1 nd
          right
          refine ⟨hgt, ?_⟩
          rw [entriesOf_cons hle]
          simp
      refine ⟨⟨s3, n + 1⟩, hrun, ⟨⟨h', ⟨lvl', g3⟩, sz3⟩, ?_⟩, rfl, Or.inr ?_⟩
      · rw [hassoc] at hn
        rcases hst with ⟨-, ha⟩ | ⟨-, ha⟩ <;>
        · rw [ha]
          simp only [List.length_append, List.length_cons] at hn ⊢
          omega
      · rcases hst with ⟨hc, ha⟩ | ⟨hc, ha⟩
        · exact Or.inl ⟨_, e, _, hassoc, hc, ha⟩
        · exact Or.inr (Or.inl ⟨_, e, _, hassoc, hc, ha⟩)

theorem OrdMap.delete_lawless {search : SearchFn (Child (OrdCache K))} (hse : SearchInRange search) {m : OrdMap K V} (hm : m.Sound) (k : K) :
    ∃ r m', m.deleteWith search k = .ok (r, m') ∧ m'.Sound ∧ LawlessStep compare m.assoc r m'.assoc (.delete k) := by
  obtain ⟨t, n⟩ := m
  obtain ⟨hi, hn⟩ := id hm
  obtain ⟨h, hi'⟩ := id hi
  have ne := hi'.ne (by decide)
  have habs := abs_nil hi'
  obtain ⟨⟨lvl, g⟩, sz⟩ := id hi'
  by_cases hne : order t = []
  · have hes : (abs t).es = [] := habs.mpr hne
    have hb : OrdMap.assoc ⟨t, n⟩ = [] := by simp [OrdMap.assoc, hes]
    refine ⟨none, ⟨t, n⟩, ?_, hm, Or.inl ⟨hb, rfl, hb⟩⟩
    simp only [OrdMap.deleteWith, query_empty g.wf ne hne, bind_ok, pure_ok]
  · obtain ⟨U, l, e, W, found, hent, -, hq⟩ := ordQuery_lawless hse g ne hne k
    have hassoc : OrdMap.assoc ⟨t, n⟩ = U.map Prod.snd ++ e :: W.map Prod.snd := by
      simp only [OrdMap.assoc, abs, hent, List.map_append, List.map_cons]
    obtain ⟨s', h1, h2, h3⟩ := C04_remove_leaf (B := ordTrait K V) (cur := ⟨l, if compare k e.1 = .gt then 1 else 0⟩) (by decide) (Or.inl (by decide)) hi hent
    have ha : OrdMap.assoc ⟨s', n - 1⟩ = U.map Prod.snd ++ W.map Prod.snd := by
      simp only [OrdMap.assoc, h3, List.map_append]
    have hn' : n = (OrdMap.assoc ⟨t, n⟩).length := hn
    rw [hassoc, List.length_append, List.length_cons] at hn'
    have hpos : 0 < n := by omega
    refine ⟨some e, ⟨s', n - 1⟩, ?_, ⟨h2, ?_⟩, Or.inr ⟨_, e, _, hassoc, rfl, ha⟩⟩
    · simp only [OrdMap.deleteWith, hq, bind_ok, h1, hpos, assertM_triv, pure_ok]
    · rw [ha, List.length_append]
      show n - 1 = _
      omega

end
end GB

import Verif.Proof.Search
import Verif.Proof.Query

/-!
# `update_leaf_by_search`: descent, leaf, and the whole operation
-/

namespace GB
variable {E C D Q F : Type}
open Tree

section
variable {B : Trait E C D} {A : Law B} {s s' : Tree E C} {lvl : Nat → Nat} {h p : Nat}

theorem Up.live (w : WF s lvl h) {x arr : Nat} {c : C} {path : List PIdx} (u : Up s x arr c path) : lnk s x ≠ none := by
  cases u with
  | root => obtain ⟨i, hi⟩ := w.root'; rw [hi]; simp
  | step h1 h2 _ => rw [(w.kin (edge_chs.mpr ⟨_, h1, h2⟩)).2]; simp

/-- The descent finds the leaf that the query finds, and records the way. -/
theorem searchPath_spec (w : WF s lvl h) (h10 : h ≤ 10) (q : Query E C Q F) (arg : Q) :
    ∀ (n x arr : Nat) (cx : C) (path : List PIdx) (fd : F) (found : Bool) (r : QueryResult) (fd' : F),
    queryF q arg n s x fd found = .ok (r, fd') → Up s x arr cx path → path.length + lvl x = h →
    ∃ p i arr' cp rest fdm e lf, searchPathF q arg (n + 1) s (.internal x) arr path fd =
        .ok (r.cursor.leaf, i, ⟨.internal p, arr'⟩ :: rest, fdm) ∧ Edge s p i (.leaf r.cursor.leaf) ∧ Up s p arr' cp rest ∧
      elm s r.cursor.leaf = some e ∧ q.confirm fdm arg e = .ok ((r.cursor.offset, lf), fd') ∧ (r.found = true → lf = true) := by
  intro n
  induction n with
  | zero => intro x arr cx path fd found r fd' hq; cases hq
  | succ n ih =>
    intro x arr cx path fd found r fd' hq u hlen
    have hx := u.live w
    have hpos := (w.lvl_pos' hx).1
    obtain ⟨N, hN⟩ := lnk_isSome.mp hx
    simp only [queryF, getIn_ok hN, bind_ok] at hq
    obtain ⟨⟨fr, fd1⟩, h1, hq⟩ := bind_inv hq
    obtain ⟨_, -, hq⟩ := bind_inv hq
    obtain ⟨c, h2, hq⟩ := bind_inv hq
    have hc : (chs s x)[fr.index]? = some c := by
      rw [chs_of hN]
      simp only [vget, unwrap] at h2
      cases hx : N.children[fr.index]? with
      | none => rw [hx] at h2; cases h2
      | some c' => rw [hx] at h2; cases h2; rfl
    rw [searchPathF]
    simp only [pathPush_ok (show path.length < 10 by omega), bind_ok, getIn_ok hN, h1, h2]
    cases har : c.arena with
    | internal y =>
      rw [har] at hq
      have hed : Edge s x fr.index (.internal y) := edge_chs.mpr ⟨c, hc, har⟩
      have := (w.kin hed).1
      exact ih y fr.index c.cache _ fd1 _ r fd' hq (.step hc har u) (by simp only [List.length_cons]; omega)
    | leaf l =>
      rw [har] at hq
      obtain ⟨L, h3, hq⟩ := bind_inv hq
      obtain ⟨⟨⟨o, lf⟩, fd2⟩, h4, hq⟩ := bind_inv hq
      cases hq
      have hL : s.lf.get l = some L := by
        simp only [getLf, unwrap] at h3
        cases hx : s.lf.get l with
        | none => rw [hx] at h3; cases h3
        | some c' => rw [hx] at h3; cases h3; rfl
      refine ⟨x, fr.index, arr, cx, path, fd1, L.elem, lf, by rw [searchPathF], edge_chs.mpr ⟨c, hc, har⟩, u, elm_of hL, h4, ?_⟩
      simp

/-- a change of the leaves below `p` when at most the cache of `p` is stale -/
theorem edit_goodX (g : GoodX A s lvl h (fun a => a = .internal p) (p = s.root)) (hp : lnk s p ≠ none) (hl : lvl p = 1)
    (r : LeafEdit s s' p) (hrc : s'.rootCache = s.rootCache) (ent : ∀ c ∈ chs s' p, EntryOK A s' c ∧ A.okC c.cache)
    (hel : ∀ l e, .leaf l ∉ kids s p → lpar s l ≠ none → elm s' l = some e → elm s l = some e)
    (hok : ∀ l e, elm s' l = some e → A.okE e) :
    GoodX A s' lvl h (fun a => a = .internal p) (p = s'.root) := by
  refine ⟨r.wf g.wf hp hl, ?_, r.cok g.cok (fun c hc => (ent c hc).2), ?_, hok⟩
  · refine r.cinv g.wf (X := fun a => a = .internal p) g.cinv (fun _ h => h) rfl ?_ ?_
    · intro l e h1 h2 h3 _; exact hel l e h1 h2 h3
    · intro c hc _; exact (ent c hc).1
  · intro hpr
    rw [r.root] at hpr
    refine RootOK.congr (s := s) ?_ hrc (g.rok hpr)
    rw [r.root]
    exact r.chs _ (Ne.symm hpr)

/-- the cache stored for a node is the combination of its entries -/
theorem Up.cache' (g : Good A s lvl h) {arr : Nat} {cp : C} {rest : List PIdx} (hne : chs s p ≠ [])
    (u : Up s p arr cp rest) : cp = A.total (cch s p) := by
  cases u with
  | root => exact g.rok.1 hne
  | step h1 h2 _ =>
    have := g.cinv _ _ (List.mem_iff_getElem?.mpr ⟨_, h1⟩) (fun h => h)
    simpa only [EntryOK, h2] using this

/-- the element of a leaf and its entry are replaced; the node above becomes stale -/
theorem leaf_base (g : Good A s lvl h) {i l : Nat} {ch : Child C} {N : Node C} {e e1 : E} (hN : s.inn.get p = some N)
    (hch : (chs s p)[i]? = some ch) (har : ch.arena = .leaf l) (hL : s.lf.get l = some ⟨e, p⟩) (ok1 : A.okE e1)
    {arr : Nat} {cp : C} {rest : List PIdx} (u : Up s p arr cp rest) :
    GoodX A (setEntry (s.setLf l ⟨e1, p⟩) p N i ch (B.elemCache e1)) lvl h (fun a => a = .internal p) (p = s.root) ∧
    SameShape s (setEntry (s.setLf l ⟨e1, p⟩) p N i ch (B.elemCache e1)) ∧
    Up (setEntry (s.setLf l ⟨e1, p⟩) p N i ch (B.elemCache e1)) p arr cp rest ∧
    (∀ k, elm (setEntry (s.setLf l ⟨e1, p⟩) p N i ch (B.elemCache e1)) k = if k = l then some e1 else elm s k) ∧
    ch.cache = B.elemCache e ∧
    ∃ L R, (∀ y ∈ L ++ R, A.okC y) ∧ cp = A.total (L ++ B.elemCache e :: R) ∧ L.length = i ∧
      cch (setEntry (s.setLf l ⟨e1, p⟩) p N i ch (B.elemCache e1)) p = L ++ B.elemCache e1 :: R := by
  have he : Edge s p i (.leaf l) := edge_chs.mpr ⟨ch, hch, har⟩
  have hll : lpar s l ≠ none := by rw [lpar_of hL]; simp
  have hN0 : (s.setLf l ⟨e1, p⟩).inn.get p = some N := hN
  have hch' := hch
  rw [chs_of hN] at hch'
  have sh0 : SameShape s (s.setLf l ⟨e1, p⟩) := SameShape.setLf hL rfl
  have sh1 := setEntry_shape (c' := B.elemCache e1) hN0 hch'
  have hel : ∀ k, elm (s.setLf l ⟨e1, p⟩) k = if k = l then some e1 else elm s k := fun k => elm_setLf s hll _ k
  have hchs := fun y => chs_setEntry (i := i) (ch := ch) (c' := B.elemCache e1) hN0 y
  have cinv0 : CInv A (s.setLf l ⟨e1, p⟩) (fun a => a = .leaf l) := by
    intro q c hc hx
    have := g.cinv q c hc (fun h => h)
    unfold EntryOK at *
    cases ha : c.arena with
    | leaf k =>
      rw [ha] at this hx
      intro e2 he2
      rw [hel, if_neg (by rintro rfl; exact hx rfl)] at he2
      exact this e2 he2
    | internal y => rw [ha] at this; exact this
  have hc0 : ch.cache = B.elemCache e := by
    have := g.cinv p ch (List.mem_iff_getElem?.mpr ⟨i, hch⟩) (fun h => h)
    simp only [EntryOK, har] at this
    exact this e (elm_of hL)
  refine ⟨⟨(sh0.trans sh1).wf g.wf, ?_, setEntry_cok hN0 g.cok (A.elem_ok _ ok1), ?_, ?_⟩, sh0.trans sh1, ?_, hel, hc0, ?_⟩
  · refine (setEntry_cinv hN0 hch' ?_ cinv0 ?_).mono ?_
    · intro q j hq
      rw [har] at hq
      exact g.wf.kid_lf_inj hq he
    · simp only [EntryOK, har]
      intro e2 he2
      rw [hel, if_pos rfl] at he2
      cases he2; rfl
    · rintro a (⟨h1, h2⟩ | h1)
      · rw [har] at h2; exact absurd h1 h2
      · exact h1
  · intro hpr
    refine RootOK.congr (s := s) ?_ rfl g.rok
    rw [hchs, (sh0.trans sh1).root, if_neg (Ne.symm hpr)]
    rfl
  · intro k e2 he2
    have he2 : elm (s.setLf l ⟨e1, p⟩) k = some e2 := he2
    rw [hel] at he2
    split at he2
    · cases he2; exact ok1
    · exact g.okE k e2 he2
  · refine u.congr g.wf (sh0.trans sh1).root rfl ?_
    intro y _ hy
    rw [hchs, if_neg (by rintro rfl; omega)]
    rfl
  · have hsp := set_split hch { ch with cache := B.elemCache e1 }
    have hlt := (List.getElem?_eq_some_iff.mp hch).1
    refine ⟨((chs s p).take i).map Child.cache, ((chs s p).drop (i + 1)).map Child.cache, ?_, ?_, ?_, ?_⟩
    · intro y hy
      rw [← List.map_append] at hy
      obtain ⟨c2, h2, rfl⟩ := List.mem_map.mp hy
      refine g.cok p c2 ?_
      rcases List.mem_append.mp h2 with h2 | h2
      · exact List.mem_of_mem_take h2
      · exact List.mem_of_mem_drop h2
    · have hL := congrArg (List.map Child.cache) hsp.1
      rw [List.map_append, List.map_cons, hc0] at hL
      rw [u.cache' g (by intro e; rw [e] at hch; simp at hch), cch, hL]
    · simp; omega
    · rw [cch, hchs, if_pos rfl]
      have := congrArg (List.map Child.cache) hsp.2
      rw [chs_of hN] at this ⊢
      rw [this]
      simp

/-- the leaf is unlinked and nothing above is repaired -/
theorem unlink_edit (g : Good A s lvl h) {i l : Nat} {N : Node C} (hN : s.inn.get p = some N) (he : Edge s p i (.leaf l)) :
    GoodX A (unlinkLeaf s p i l N) lvl h (fun a => a = .internal p) (p = s.root) ∧
    LeafEdit s (unlinkLeaf s p i l N) p ∧
    (∀ k, elm (unlinkLeaf s p i l N) k = if k = l then none else elm s k) ∧
    (∀ y, lnk (unlinkLeaf s p i l N) y = lnk s y) ∧
    (∀ y, chs (unlinkLeaf s p i l N) y = if y = p then (chs s p).eraseIdx i else chs s y) ∧
    ∃ u v, order s = u ++ l :: v ∧ order (unlinkLeaf s p i l N) = u ++ v := by
  have hpl : lnk s p ≠ none := lnk_isSome.mpr ⟨N, hN⟩
  have hl : lvl p = 1 := (g.wf.klf he).1
  generalize ht : unlinkLeaf s p i l N = t
  have tl : ∀ y, lnk t y = lnk s y := by
    intro y
    rw [← ht]
    show lnk (s.setIn p _) y = _
    rw [lnk_setIn s hpl]
    split
    · next e => subst e; exact (lnk_of hN).symm
    · rfl
  have tc : ∀ y, chs t y = if y = p then (chs s p).eraseIdx i else chs s y := by
    intro y
    rw [← ht]
    show chs (s.setIn p _) y = _
    rw [chs_setIn s hpl, chs_of hN]
  have tpar : ∀ k, lpar t k = if k = l then none else lpar s k := by
    intro k; rw [← ht, unlinkLeaf, lpar_freeLf, lpar_setIn]
  have telm : ∀ k, elm t k = if k = l then none else elm s k := by
    intro k; rw [← ht, unlinkLeaf, elm_freeLf, elm_setIn]
  have troot : t.root = s.root := by rw [← ht]; rfl
  have trc : t.rootCache = s.rootCache := by rw [← ht]; rfl
  have titems : t.inn.items.length = s.inn.items.length := by rw [← ht]; simp [unlinkLeaf, freeLf]
  have tcp : chs t p = (chs s p).eraseIdx i := by rw [tc, if_pos rfl]
  have tk : kids t p = (kids s p).take i ++ (kids s p).drop (i + 1) := by
    rw [kids_chs, tcp, kids_chs, List.eraseIdx_eq_take_drop_succ]; simp
  have r : LeafEdit s t p := leafEdit_del g.wf hl troot titems tl (fun y hy => by rw [tc, if_neg hy]) he tk
    (by rw [tpar, if_pos rfl]) (fun k hk => by rw [tpar, if_neg hk])
  have w' := r.wf g.wf hpl hl
  have hmem : ∀ c ∈ chs t p, c ∈ chs s p ∧ ∃ k, c.arena = .leaf k ∧ k ≠ l := by
    intro c hc
    rw [tcp] at hc
    have hcs := List.mem_of_mem_eraseIdx hc
    refine ⟨hcs, ?_⟩
    obtain ⟨j, hj⟩ := List.mem_iff_getElem?.mp hcs
    obtain ⟨k, hk⟩ := (g.wf.kid_leaf_iff (edge_chs.mpr ⟨c, hj, rfl⟩)).mp hl
    refine ⟨k, hk, ?_⟩
    rintro rfl
    have hm : Idx.leaf k ∈ kids t p := by
      rw [kids_chs, tcp, ← hk]; exact List.mem_map_of_mem hc
    obtain ⟨j2, hj2⟩ := mem_kids.mp hm
    have := (w'.klf hj2).2
    rw [tpar, if_pos rfl] at this
    cases this
  have gX := edit_goodX (p := p) (g.toX.weaken (fun _ h => h.elim) (fun h => h.elim)) hpl hl r trc
    (by
      intro c hc
      obtain ⟨h1, k, h2, h3⟩ := hmem c hc
      refine ⟨?_, g.cok p c h1⟩
      have := g.cinv p c h1 (fun h => h)
      simp only [EntryOK, h2, telm, if_neg h3] at this ⊢
      exact this)
    (by
      intro k e _ _ hk
      rw [telm] at hk
      split at hk
      · cases hk
      · exact hk)
    (by
      intro k e hk
      rw [telm] at hk
      split at hk
      · cases hk
      · exact g.okE k e hk)
  rw [troot] at gX
  refine ⟨gX, r, telm, tl, tc, ?_⟩
  obtain ⟨a, b, o1, o2⟩ := r.order g.wf hpl hl
  refine ⟨a ++ ((kids s p).take i).map Idx.raw, ((kids s p).drop (i + 1)).map Idx.raw ++ b, ?_, ?_⟩
  · rw [o1, LeafEdit.leafIds]
    conv => lhs; rw [get_split he]
    simp [Idx.raw]
  · rw [o2, LeafEdit.leafIds, tk]
    simp

theorem apply_single {c : C} {d : D} {c' : C} (ex : Exact A c d [c']) (h1 : A.okC c) (h2 : A.okC c') : B.apply c d = .ok c' := by
  have := ex [] [] (by simp)
  simpa only [List.nil_append, List.append_nil, A.total_single c h1, A.total_single c' h2] using this

/-- replacing the element -/
theorem search_upd {m : Fill} (hm : 1 ≤ m.lo ∧ m.lo + m.d ≤ 6) (g : Good A s lvl h) (sz : Sz m s h) {i l : Nat} {e e1 : E}
    (he : Edge s p i (.leaf l)) (hL : s.lf.get l = some ⟨e, p⟩) (ok1 : A.okE e1) {d : D}
    (ex : Exact A (B.elemCache e) d [B.elemCache e1]) {arr : Nat} {cp : C} {rest : List PIdx} (u : Up s p arr cp rest)
    {U V : List (Nat × E)} (hent : entries s = U ++ (l, e) :: V) :
    ∃ r s' lvl' h', searchInsF B d (s.setLf l ⟨e1, p⟩) (⟨.internal p, arr⟩ :: rest) none i = .ok r ∧ insEnd B d r = .ok s' ∧
      Good A s' lvl' h' ∧ Sz m s' h' ∧ entries s' = U ++ (l, e1) :: V ∧ s'.lf.items.length = s.lf.items.length := by
  have hpl := edge_live he
  obtain ⟨N, hN⟩ := lnk_isSome.mp hpl
  obtain ⟨ch, hch, har⟩ := edge_chs.mp he
  obtain ⟨gX, sh, u1, hel, hc0, L, R, hok, hcp, -, hcch⟩ := leaf_base g hN hch har hL ok1 u
  have hpz := sz p hpl (fun h => h)
  have hokc := A.elem_ok e (g.okE l e (elm_of hL))
  have hlen : (chs (setEntry (s.setLf l ⟨e1, p⟩) p N i ch (B.elemCache e1)) p).length = (chs s p).length := sh.len p
  have hlt := (List.getElem?_eq_some_iff.mp hch).1
  obtain ⟨r, s', lvl', h', r1, r2, r3, r4, r5⟩ := searchIns_spec hm ex (by simp) rest _ lvl p arr cp
    (by rw [sh.root]; exact gX) ((sh.live p).mpr hpl) u1
    ⟨L, R, hok, hcp, by rw [hcch]; simp⟩ (SzX.congr sh fun y hy _ => sz y hy (fun h => h))
    (by intro e; rw [e] at hlen; simp at hlen; omega) (by rw [hlen]; have := hpz.1; omega)
    (by rw [hlen, sh.root]; exact fun hr => (hpz.2.1 hr).keep (fun hh => hh.shape sh) (Nat.le_refl _)) (by rw [hlen, sh.root]; exact hpz.2.2)
  refine ⟨r, s', lvl', h', ?_, r2, r3, r4, ?_, ?_⟩
  · have hN0 : (s.setLf l ⟨e1, p⟩).inn.get p = some N := hN
    rw [searchInsF]
    rw [chs_of hN] at hch
    have hap : B.apply ch.cache d = .ok (B.elemCache e1) := by
      rw [hc0]; exact apply_single ex hokc (A.elem_ok e1 ok1)
    simp only [Idx.unwrapInternal, getIn_ok hN0, bind_ok, vget_ok hch, hap]
    rw [insRun, if_neg (by rw [hlen]; have := hpz.1; simp only [MAXC]; omega)] at r1
    exact r1
  · rw [r5.entries]
    exact entries_upd (e := e) g.wf sh.order hel hent
  · rw [r5.lfitems]; simp [setEntry]

/-- replacing the element and adding one after it -/
theorem search_ins {m : Fill} (hm : 1 ≤ m.lo ∧ m.lo + m.d ≤ 6) (g : Good A s lvl h) (sz : Sz m s h) {i l : Nat} {e e1 a : E}
    (he : Edge s p i (.leaf l)) (hL : s.lf.get l = some ⟨e, p⟩) (ok1 : A.okE e1) (oka : A.okE a) {d : D}
    (ex : Exact A (B.elemCache e) d [B.elemCache e1, B.elemCache a]) {arr : Nat} {cp : C} {rest : List PIdx} (u : Up s p arr cp rest)
    {U V : List (Nat × E)} (hent : entries s = U ++ (l, e) :: V) :
    ∃ r s' lvl' h', searchInsF B d (addLf (s.setLf l ⟨e1, p⟩) ⟨a, p⟩) (⟨.internal p, arr⟩ :: rest)
        (some (B.elemCache e1, ⟨.leaf s.lf.items.length, B.elemCache a⟩)) i = .ok r ∧ insEnd B d r = .ok s' ∧
      Good A s' lvl' h' ∧ Sz m s' h' ∧ entries s' = U ++ (l, e1) :: (s.lf.items.length, a) :: V ∧
      s'.lf.items.length = s.lf.items.length + 1 := by
  have hpl := edge_live he
  obtain ⟨N, hN⟩ := lnk_isSome.mp hpl
  obtain ⟨ch, hch, har⟩ := edge_chs.mp he
  obtain ⟨gX, sh, u1, hel, hc0, L, R, hok, hcp, hLi, hcch⟩ := leaf_base g hN hch har hL ok1 u
  have hpz := sz p hpl (fun h => h)
  have hlt := (List.getElem?_eq_some_iff.mp hch).1
  have hN0 : (s.setLf l ⟨e1, p⟩).inn.get p = some N := hN
  obtain ⟨N1, hN1d⟩ : ∃ N1 : Node C, N1 = { N with children := N.children.set i { ch with cache := B.elemCache e1 } } := ⟨_, rfl⟩
  have hse : setEntry (s.setLf l ⟨e1, p⟩) p N i ch (B.elemCache e1) = (s.setLf l ⟨e1, p⟩).setIn p N1 := by rw [hN1d]; rfl
  have hlf1 : (setEntry (s.setLf l ⟨e1, p⟩) p N i ch (B.elemCache e1)).lf.items.length = s.lf.items.length := by simp [setEntry]
  generalize hs1 : setEntry (s.setLf l ⟨e1, p⟩) p N i ch (B.elemCache e1) = s1 at *
  have hN1 : s1.inn.get p = some N1 := by
    rw [hse]
    simp only [setIn, Arena.get_set, hN0]
    simp
    intro h
    have := Arena.get_lt hN
    omega
  have hlen : (chs s1 p).length = (chs s p).length := sh.len p
  have hp1 : lnk s1 p ≠ none := (sh.live p).mpr hpl
  have hl1 : lvl p = 1 := (g.wf.klf he).1
  have hent1 : entries s1 = U ++ (l, e1) :: V := entries_upd (e := e) g.wf sh.order hel hent
  obtain ⟨r, hchs, hk, hel2⟩ := linkLeaf_spec (B := B) gX.wf hN1 hl1 (i + 1) a
  have hl2 := linkLeaf_len (B := B) hN1 (j := i + 1) a
  have ed1 : Edge s1 p i (.leaf l) := by rw [Edge, sh.kids]; exact he
  have ent1 : ∀ c ∈ chs s1 p, EntryOK A s1 c ∧ A.okC c.cache := by
    intro c hc
    refine ⟨gX.cinv p c hc ?_, gX.cok p c hc⟩
    obtain ⟨j, hj⟩ := List.mem_iff_getElem?.mp hc
    obtain ⟨k, hk⟩ := (gX.wf.kid_leaf_iff (edge_chs.mpr ⟨c, hj, rfl⟩)).mp hl1
    rw [hk]; simp
  have g2 := edit_goodX (p := p) (by rw [sh.root]; exact gX) hp1 hl1 r rfl (linkLeaf_ent gX.wf hN1 hl1 oka _ ent1)
    (by
      intro k x _ hk hx
      rw [hel2, if_neg] at hx
      · exact hx
      · rintro rfl; exact hk (lpar_fresh s1))
    (by
      intro k x hx
      rw [hel2] at hx
      split at hx
      · cases hx; exact oka
      · exact gX.okE k x hx)
  have hroot2 : (linkLeaf B s1 p (i + 1) a N1).root = s.root := r.root.trans sh.root
  have hlive2 : ∀ y, lnk (linkLeaf B s1 p (i + 1) a N1) y ≠ none → lnk s1 y ≠ none := by intro y hy; rw [r.lnk] at hy; exact hy
  obtain ⟨r', s', lvl', h', r1, r2, r3, r4, r5⟩ := searchIns_spec hm ex (by simp) rest _ lvl p arr cp
    g2 (by rw [r.lnk]; exact hp1)
    (u1.congr gX.wf r.root rfl (fun y _ hy => r.chs y (by rintro rfl; omega)))
    ⟨L, R, hok, hcp, by
      congr 1
      rw [cch, hchs, List.map_append, List.map_cons, List.map_take, List.map_drop]
      rw [cch] at hcch
      rw [hcch, ← hLi, List.take_append, List.drop_append, List.take_of_length_le (Nat.le_succ _), List.drop_of_length_le (Nat.le_succ _)]
      simp⟩
    (by
      intro y hy hyp
      have := sz y ((sh.live y).mp (hlive2 y hy)) (fun h => h)
      rw [r.chs y hyp, sh.len, hroot2]
      exact ⟨this.1, fun hr => (this.2.1 hr).keep (fun hh => (hh.shape sh).edit r gX.wf hl1) (Nat.le_refl _), this.2.2⟩)
    (by intro e; rw [e] at hl2; simp at hl2) (by rw [hl2, hlen]; have := hpz.1; omega)
    (by rw [hl2, hlen, hroot2]; intro hx; exact (hpz.2.1 hx).keep (fun hh => (hh.shape sh).edit r gX.wf hl1) (by omega)) (by rw [hl2, hlen, hroot2]; intro hx h2; have := hpz.2.2 hx h2; omega)
  refine ⟨r', s', lvl', h', ?_, r2, r3, r4, ?_, ?_⟩
  · have hN2 : (addLf (s.setLf l ⟨e1, p⟩) ⟨a, p⟩).inn.get p = some N := hN
    rw [searchInsF]
    have hchN := hch
    rw [chs_of hN] at hchN
    have hNl : N1.children.length = N.children.length := by rw [hN1d]; simp
    have hsl : (chs s p).length = N.children.length := by rw [chs_of hN]
    have hv : vinsert (N.children.set i { ch with cache := B.elemCache e1 }) (i + 1) ⟨.leaf s.lf.items.length, B.elemCache a⟩ =
        .ok (N1.children.take (i + 1) ++ ⟨.leaf s.lf.items.length, B.elemCache a⟩ :: N1.children.drop (i + 1)) := by
      rw [vinsert_ok _ (by simp; omega) (by simp; have := hpz.1; omega), hN1d]
    have hst : (addLf (s.setLf l ⟨e1, p⟩) ⟨a, p⟩).setIn p { N with children := N1.children.take (i + 1) ++ ⟨.leaf s.lf.items.length, B.elemCache a⟩ :: N1.children.drop (i + 1) } =
        linkLeaf B s1 p (i + 1) a N1 := by
      rw [linkLeaf, hlf1, hse, hN1d]
      simp only [addLf, setIn, setLf, Arena.set, Arena.insert, List.set_set]
    have hcl : ({ N with children := N1.children.take (i + 1) ++ ⟨.leaf s.lf.items.length, B.elemCache a⟩ :: N1.children.drop (i + 1) } : Node C).isChildLeaf = true := by
      have hkl : ∀ c ∈ N1.children, ∃ k, c.arena = .leaf k := by
        intro c hc
        obtain ⟨j, hj⟩ := List.mem_iff_getElem?.mp hc
        exact (gX.wf.kid_leaf_iff (edge_chs.mpr ⟨c, by rw [chs_of hN1]; exact hj, rfl⟩)).mp hl1
      cases hcc : N1.children with
      | nil => rw [hcc] at hNl; simp at hNl; omega
      | cons c0 cs =>
        obtain ⟨k, hk⟩ := hkl c0 (by rw [hcc]; simp)
        simp [Node.isChildLeaf, hk, Idx.isLeaf]
    have hfl : ({ N with children := N1.children.take (i + 1) ++ ⟨.leaf s.lf.items.length, B.elemCache a⟩ :: N1.children.drop (i + 1) } : Node C).isFull =
        decide (MAXC ≤ (chs (linkLeaf B s1 p (i + 1) a N1) p).length) := by
      rw [hchs, hlf1, chs_of hN1]; rfl
    simp only [Idx.unwrapInternal, getIn_ok hN2, bind_ok, vget_ok hchN, hv, hst, hcl, if_true, pure_ok, hfl, decide_eq_true_eq]
    exact r1
  · rw [r5.entries]
    have := link_entries (B := B) gX.wf hN1 hl1 a ed1 hent1
    rw [this, hlf1]
  · rw [r5.lfitems, ← hlf1]
    simp [linkLeaf, addLf, Arena.insert]

/-- removing the leaf -/
theorem search_del {m : Fill} (hm : 1 ≤ m.lo ∧ m.lo + m.d ≤ 5) (le : LawE A) (g : Good A s lvl h) (sz : Sz m s h) {i l : Nat} {e e1 : E}
    (he : Edge s p i (.leaf l)) (hL : s.lf.get l = some ⟨e, p⟩) {d : D}
    (ex : Exact A (B.elemCache e) d []) {arr : Nat} {cp : C} {rest : List PIdx} (u : Up s p arr cp rest)
    {U V : List (Nat × E)} (hent : entries s = U ++ (l, e) :: V) :
    ∃ s' lvl' h', (do
        let (lack, s) ← searchDelF B d { s.setLf l ⟨e1, p⟩ with lf := (s.setLf l ⟨e1, p⟩).lf.remove l } (⟨.internal p, arr⟩ :: rest) true false (.leaf l) i
        let rc ← B.apply s.rootCache d
        let s := { s with rootCache := rc }
        let root ← s.getIn s.root
        let s ← (if lack ∧ root.children.length = 1 ∧ root.isChildLeaf = false then tryReduceLevels s
          else pure s : M (Tree E C))
        pure (none, [], s) : M (Option Cursor × List Nat × Tree E C)) = .ok (none, [], s') ∧
      Good A s' lvl' h' ∧ Sz m s' h' ∧ entries s' = U ++ V ∧ s'.lf.items.length = s.lf.items.length := by
  have hpl := edge_live he
  obtain ⟨N, hN⟩ := lnk_isSome.mp hpl
  obtain ⟨ch, hch, har⟩ := edge_chs.mp he
  have hpz := sz p hpl (fun h => h)
  have hlt := (List.getElem?_eq_some_iff.mp hch).1
  have hl1 : lvl p = 1 := (g.wf.klf he).1
  have hc0 : ch.cache = B.elemCache e := by
    have := g.cinv p ch (List.mem_iff_getElem?.mpr ⟨i, hch⟩) (fun h => h)
    simp only [EntryOK, har] at this
    exact this e (elm_of hL)
  have hcp := u.cache' g (by intro e; rw [e] at hch; simp at hch)
  obtain ⟨gX, r, hel, hlnk, hchs, ou, ov, o1, o2⟩ := unlink_edit g hN he
  have hlft : (unlinkLeaf s p i l N).lf.items.length = s.lf.items.length := by simp [unlinkLeaf, freeLf, Arena.remove]
  have hst : ({ s.setLf l ⟨e1, p⟩ with lf := (s.setLf l ⟨e1, p⟩).lf.remove l } : Tree E C).setIn p { N with children := N.children.eraseIdx i } =
      unlinkLeaf s p i l N := by
    simp only [unlinkLeaf, freeLf, setIn, setLf, Arena.set, Arena.remove, List.set_set]
  have hrc : (unlinkLeaf s p i l N).rootCache = s.rootCache := rfl
  have hN0 : ({ s.setLf l ⟨e1, p⟩ with lf := (s.setLf l ⟨e1, p⟩).lf.remove l } : Tree E C).inn.get p = some N := hN
  generalize ht : unlinkLeaf s p i l N = t at *
  have tcp : chs t p = (chs s p).eraseIdx i := by rw [hchs, if_pos rfl]
  have hlen : (chs t p).length + 1 = (chs s p).length := by
    rw [tcp, List.length_eraseIdx, if_pos hlt]; omega
  have hsp := set_split hch ch
  have hlr : s.root = p → h = 1 := by rintro rfl; rw [← g.wf.root_lvl]; exact hl1
  obtain ⟨lack0, hlack0⟩ : ∃ b, b = ({ N with children := N.children.eraseIdx i } : Node C).isLack := ⟨_, rfl⟩
  have hlack : lack0 = decide ((chs t p).length < 6) := by
    rw [hlack0, tcp, chs_of hN]; rfl
  obtain ⟨b, s2, d1, d2, d3, d4, d5, d6⟩ := searchDel_spec (B := B) hm le ex rest t p arr lack0 cp
    (by rw [r.root]; exact gX) (by rw [hlnk]; exact hpl)
    (u.congr g.wf r.root hrc (fun y _ hy => r.chs y (by rintro rfl; omega)))
    ⟨((chs s p).take i).map Child.cache, ((chs s p).drop (i + 1)).map Child.cache, by
        intro y hy
        rw [← List.map_append] at hy
        obtain ⟨c2, h2, rfl⟩ := List.mem_map.mp hy
        refine g.cok p c2 ?_
        rcases List.mem_append.mp h2 with h2 | h2
        · exact List.mem_of_mem_take h2
        · exact List.mem_of_mem_drop h2, by
        have hL := congrArg (List.map Child.cache) hsp.1
        rw [List.map_append, List.map_cons, hc0] at hL
        rw [hcp, cch, hL], by
        rw [cch, tcp, List.eraseIdx_eq_take_drop_succ]; simp⟩
    (by
      intro y hy hyp
      rw [hlnk] at hy
      have := sz y hy (fun h => h)
      rw [hchs, if_neg hyp, r.root]
      exact ⟨this.1, fun hr => (this.2.1 hr).keep (fun hh => hh.edit r g.wf hl1) (Nat.le_refl _), this.2.2⟩)
    (by
      refine ⟨by have := hpz.1; omega, ?_, ?_⟩
      · intro hpr
        rw [r.root] at hpr
        refine ⟨(hpz.2.1 hpr).keep (fun hh => hh.edit r g.wf hl1) (by omega), fun hb => ?_⟩
        rw [hlack] at hb
        have := of_decide_eq_false hb
        exact .of (by omega)
      · intro hpr h2
        rw [r.root] at hpr
        have := hlr hpr.symm
        omega)
  obtain ⟨f1, f2⟩ := root_fix ex d2 (Or.inr le) d3
  have sh2 := SameShape.rootCache s2 (A.total (cch s2 s2.root))
  obtain ⟨i2, hi2⟩ := d2.wf.root'
  have hr2 : lnk s2 s2.root ≠ none := by rw [hi2]; simp
  obtain ⟨R, hR⟩ := lnk_isSome.mp hr2
  have hR' : ({ s2 with rootCache := A.total (cch s2 s2.root) } : Tree E C).inn.get s2.root = some R := hR
  have hent2 : entries s2 = U ++ V := by
    rw [d6.entries]; exact entries_del g.wf hent o1 o2 hel
  have hdel : searchDelF B d { s.setLf l ⟨e1, p⟩ with lf := (s.setLf l ⟨e1, p⟩).lf.remove l } (⟨.internal p, arr⟩ :: rest) true false (.leaf l) i =
      .ok (b, s2) := by
    rw [searchDelF]
    have hNlt : i < N.children.length := by rw [chs_of hN] at hlt; exact hlt
    simp only [Idx.unwrapInternal, getIn_ok hN0, bind_ok, vremove, List.getElem?_eq_getElem hNlt, if_true, pure_ok, Bool.false_eq_true, if_false, hst, ← hlack0]
    exact d1
  simp only [hdel, bind_ok, f1, getIn_ok hR']
  have szr : ∀ k, k ≤ h → (2 ≤ k → 2 ≤ (chs s2 s2.root).length) → Sz m { s2 with rootCache := A.total (cch s2 s2.root) } k := by
    intro k hk h2 y hy _
    by_cases hyr : y = s2.root
    · subst hyr
      exact ⟨d5.le, fun h => absurd rfl h, fun _ => h2⟩
    · have := d4 y hy hyr
      exact ⟨this.1, fun hr => (this.2.1 hr).keep (fun hh => hh.shape sh2) (Nat.le_refl _), fun h => absurd h hyr⟩
  have hRl : (chs s2 s2.root).length = R.children.length := by rw [chs_of hR]
  by_cases hc : b = true ∧ R.children.length = 1 ∧ R.isChildLeaf = false
  · obtain ⟨s', lvl', h', t1, t2, t3, t4, t5, t6, t7⟩ := tryReduce_spec hm.1 f2 (SzX.congr sh2 d4) d5.le
    refine ⟨s', lvl', h', ?_, t2, t3, ?_, ?_⟩
    · rw [if_pos hc, t1]; rfl
    · rw [t6.entries, (sh2.same rfl).entries, hent2]
    · rw [t6.lfitems]; exact d6.lfitems.trans hlft
  · refine ⟨_, lvl, h, by rw [if_neg hc]; rfl, f2, szr h (Nat.le_refl h) ?_, ?_, ?_⟩
    · intro h2
      have hd := d5.root rfl h2
      apply Classical.byContradiction
      intro hlt2
      have h1 : R.children.length = 1 := by omega
      have hb : b = true := by
        cases b with
        | true => rfl
        | false => exact absurd (hd.2 rfl) hlt2
      refine hc ⟨hb, h1, ?_⟩
      cases hcc : R.children with
      | nil => rw [hcc] at h1; simp at h1
      | cons c0 cs =>
        obtain ⟨y, hy⟩ := kids_internal d2.wf (p := s2.root) (by rw [d2.wf.root_lvl]; exact h2) c0.arena (by rw [kids_of hR, hcc]; simp)
        simp [Node.isChildLeaf, hcc, hy, Idx.isLeaf]
    · rw [(sh2.same rfl).entries, hent2]
    · exact d6.lfitems.trans hlft

/-- what the search finds, and the state the rest of the operation starts from -/
theorem search_start (g : Good A s lvl h) (ne : NE s) (h10 : h ≤ 10) {q : Query E C Q F} {arg : Q} {r : QueryResult} {fd : F}
    (hq : queryWithFinder q s arg = .ok (some r, fd)) {e : E} {U V : List (Nat × E)} (hent : entries s = U ++ (r.cursor.leaf, e) :: V) :
    isEmpty s = .ok false ∧ ∃ p i arr cp rest fdm fnd,
      searchPathF q arg (s.fuel + 1) s (.internal s.root) 0 [] (q.init arg) = .ok (r.cursor.leaf, i, ⟨.internal p, arr⟩ :: rest, fdm) ∧
      Edge s p i (.leaf r.cursor.leaf) ∧ Up s p arr cp rest ∧ s.lf.get r.cursor.leaf = some ⟨e, p⟩ ∧
      q.confirm fdm arg e = .ok ((r.cursor.offset, fnd), fd) ∧ (r.found = true → fnd = true) := by
  have hem : isEmpty s = .ok false := by
    rw [isEmpty_spec g.wf ne]
    cases ho : order s with
    | nil =>
      have := entries_fst g.wf
      rw [hent, ho] at this
      simp at this
    | cons a b => rfl
  refine ⟨hem, ?_⟩
  simp only [queryWithFinder, hem, bind_ok, Bool.false_eq_true, if_false] at hq
  obtain ⟨⟨r', fd'⟩, h1, h2⟩ := bind_inv hq
  cases h2
  obtain ⟨p, i, arr, cp, rest, fdm, e', lf, k1, k2, k3, k4, k5, k6⟩ := searchPath_spec g.wf h10 q arg s.fuel s.root 0 _ [] _ _ _ _ h1
    (.root 0) (by simpa using g.wf.root_lvl)
  have hme : elm s r'.cursor.leaf = some e := (entries_mem g.wf).mp (by rw [hent]; simp)
  rw [hme] at k4
  cases k4
  obtain ⟨el, hL, hel⟩ := getLf_of (g.wf.klf k2).2
  rw [hme] at hel
  cases hel
  exact ⟨p, i, arr, cp, rest, fdm, lf, k1, k2, k3, hL, k5, k6⟩

end
end GB

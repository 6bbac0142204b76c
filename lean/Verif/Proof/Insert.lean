import Verif.Proof.LeafSplit

/-!
# `insert_by_path`
-/

namespace GB
variable {E C D : Type}
open Tree

/-- the outcome of `insert_by_path` at `cursor`, in a leaf `l` holding `e` at the position `U ++ (l, e) :: V` -/
inductive InsRel (B : Trait E C D) (s : Tree E C) (U V : List (Nat × E)) (l o : Nat) (e data : E) (c : Cursor)
    (sp : List Nat) (s' : Tree E C) : Prop
  /-- absorbed by the leaf itself -/
  | inplace (e' : E) : B.tryInsert e o data = .ok (.inl e') → c = ⟨l, o⟩ → sp = [] →
      entries s' = U ++ (l, e') :: V → s'.lf.items.length = s.lf.items.length → InsRel B s U V l o e data c sp s'
  /-- merged in front -/
  | left (e' : E) : B.tryInsert e o data = .ok (.inr data) → o = 0 → B.canMerge data e = true →
      B.mergeLeft e data = .ok e' → c = ⟨l, 0⟩ → sp = [] →
      entries s' = U ++ (l, e') :: V → s'.lf.items.length = s.lf.items.length → InsRel B s U V l o e data c sp s'
  /-- merged behind -/
  | right (e' : E) : B.tryInsert e o data = .ok (.inr data) → ¬ (o = 0 ∧ B.canMerge data e = true) →
      o = B.rleLen e → B.canMerge e data = true →
      B.mergeRight e data = .ok e' → c = ⟨l, B.rleLen e⟩ → sp = [] →
      entries s' = U ++ (l, e') :: V → s'.lf.items.length = s.lf.items.length → InsRel B s U V l o e data c sp s'
  /-- a new leaf in front -/
  | before : B.tryInsert e o data = .ok (.inr data) → ¬ (o = 0 ∧ B.canMerge data e = true) →
      ¬ (o = B.rleLen e ∧ B.canMerge e data = true) → o = 0 → c = ⟨s.lf.items.length, 0⟩ → sp = [] →
      entries s' = U ++ (c.leaf, data) :: (l, e) :: V → s'.lf.items.length = s.lf.items.length + 1 → InsRel B s U V l o e data c sp s'
  /-- a new leaf behind -/
  | after : B.tryInsert e o data = .ok (.inr data) → ¬ (o = B.rleLen e ∧ B.canMerge e data = true) →
      o ≠ 0 → o = B.rleLen e → c = ⟨s.lf.items.length, 0⟩ → sp = [] →
      entries s' = U ++ (l, e) :: (c.leaf, data) :: V → s'.lf.items.length = s.lf.items.length + 1 → InsRel B s U V l o e data c sp s'
  /-- the leaf is split and a new leaf put between the parts -/
  | cut (a b : E) : B.tryInsert e o data = .ok (.inr data) → 0 < o → o < B.rleLen e → B.split e o = .ok (a, b) →
      c = ⟨s.lf.items.length + 1, 0⟩ → sp = [s.lf.items.length] →
      entries s' = U ++ (l, a) :: (c.leaf, data) :: (s.lf.items.length, b) :: V →
      s'.lf.items.length = s.lf.items.length + 2 → InsRel B s U V l o e data c sp s'

section
variable {s s' : Tree E C} {lvl : Nat → Nat} {h p : Nat} {B : Trait E C D} {A : Law B}

/-- the last part of `insert_by_path`: put the new leaf at the reported slot -/
theorem insTail {m : Fill} (hm1 : 1 ≤ m.lo) (hm6 : m.lo + m.d ≤ 6) (g : Good A s lvl h) (sz : Sz m s h) {q i l : Nat} {data : E}
    (hed : Edge s q i (.leaf l)) {j : Nat} (hj : j = i ∨ j = i + 1) (hok : A.okE data) :
    ∃ s3 lvl' h' N, s.inn.get q = some N ∧
      vinsert N.children j ⟨.leaf s.lf.items.length, B.elemCache data⟩ =
        .ok (N.children.take j ++ ⟨.leaf s.lf.items.length, B.elemCache data⟩ :: N.children.drop j) ∧
      (do
        let s2 ← recursiveUpdateCache B (linkLeaf B s q j data N) (.leaf l) B.useDiff
          (if B.useDiff = true then some (B.newCacheToDiff (B.elemCache data)) else none)
        if MAXC ≤ N.children.length + 1 then split B s2 q else pure s2 : M (Tree E C)) = .ok s3 ∧
      Good A s3 lvl' h' ∧ Sz m s3 h' ∧ Steps (FullAbove s l) h h' ∧
      s3.lf.items.length = s.lf.items.length + 1 ∧
      (∀ U e V, entries s = U ++ (l, e) :: V →
        (j = i → entries s3 = U ++ (s.lf.items.length, data) :: (l, e) :: V) ∧
        (j = i + 1 → entries s3 = U ++ (l, e) :: (s.lf.items.length, data) :: V)) := by
  obtain ⟨N, hN⟩ := lnk_isSome.mp (edge_live hed)
  have hl1 := (g.wf.klf hed).1
  have hlt := (List.getElem?_eq_some_iff.mp hed).1
  rw [kids_chs, List.length_map, chs_of hN] at hlt
  have szq := (sz q (edge_live hed) (fun h => h)).1
  rw [chs_of hN] at szq
  obtain ⟨s3, lvl', h', e3, g3, sz3, h1, h2, hr, hlf, hel, u, v, o1, o2, o3, o4⟩ :=
    link_finish hm1 hm6 g sz hN hl1 (by left; rw [chs_of hN]; intro e; rw [e] at hlt; simp at hlt)
      (j := j) hok (.leaf l) (Or.inr ⟨l, rfl, mem_kids.mpr ⟨i, hed⟩⟩) _ (diff_cases B data)
  refine ⟨s3, lvl', h', N, hN, vinsert_ok _ (by omega) szq, e3, g3, sz3, h2.iff ⟨fun ⟨k1, k2⟩ => ⟨q, i, hed, k1, k2⟩, ?_⟩, hlf, ?_⟩
  · rintro ⟨q', i', k2, k3⟩
    rw [(g.wf.kid_lf_inj hed k2).1]
    exact k3
  intro U e V hent
  obtain ⟨n1, n2⟩ := entries_ins g.wf o1 o2 (lpar_fresh s) hel
  obtain ⟨u0, v0, p1, rfl, rfl, hle⟩ := entries_split g.wf hent
  have nd := order_nodup g.wf
  rw [p1] at nd
  constructor
  · intro hji
    obtain ⟨v', rfl⟩ := o3 l (by rw [hji]; exact hed)
    rw [p1] at o1
    obtain ⟨rfl, rfl⟩ := nodup_append_cons_inj o1 nd
    rw [n2, entriesOf_cons hle]
  · intro hji
    obtain ⟨u', rfl⟩ := o4 l (by omega) (by rw [hji]; exact hed)
    rw [p1, List.append_assoc] at o1
    obtain ⟨rfl, h4⟩ := nodup_append_cons_inj o1 nd
    subst h4
    rw [n2, entriesOf_append, entriesOf_cons hle]
    simp

/-- an insertion at the leaf `l` with the new leaves `sp` (split off) and `c` makes all nodes above overflow -/
def InsRaises (s : Tree E C) (l : Nat) (sp : List Nat) (c : Cursor) : Prop :=
  c.leaf ≠ l ∧ (FullAbove s l ∨ sp ≠ [] ∧ NearFull s l)

theorem insertByPath_spec {m : Fill} (hm1 : 1 ≤ m.lo) (hm6 : m.lo + m.d ≤ 6) (g : Good A s lvl h) (sz : Sz m s h)
    {l o : Nat} {e data : E} {U V : List (Nat × E)} (hent : entries s = U ++ (l, e) :: V) (hoff : o ≤ B.rleLen e)
    (hm : m.lo + m.d ≤ 5 ∨ o = 0 ∨ o = B.rleLen e) (hok : A.okE data) :
    ∃ c sp s' lvl' h', insertByPath B s ⟨l, o⟩ data = .ok ((c, sp), s') ∧ Good A s' lvl' h' ∧ Sz m s' h' ∧
      Steps (InsRaises s l sp c) h h' ∧ InsRel B s U V l o e data c sp s' := by
  obtain ⟨u0, v0, p1, -, -, hle⟩ := entries_split g.wf hent
  obtain ⟨e2, q, i, N, hL, he2, hed, hN, hl1, hiN⟩ := leaf_get g.wf (l := l) (by rw [p1]; simp)
  rw [hle] at he2
  cases he2
  have heok := g.okE l e hle
  have nofr : ∀ o sp, ¬ InsRaises s l sp ⟨l, o⟩ := fun o sp h => h.1 rfl
  have hfl : s.lf.items.length ≠ l := by
    intro e'; exact elm_live hle (by rw [← e']; exact lpar_fresh s)
  have one : ∀ {h h' : Nat} {sp : List Nat}, sp = [] → Steps (FullAbove s l) h h' → Steps (InsRaises s l sp ⟨s.lf.items.length, 0⟩) h h' :=
    fun hsp k => k.iff ⟨fun k => ⟨hfl, .inl k⟩, fun k => k.2.resolve_right fun h => h.1 hsp⟩
  rcases A.tryInsert e o data heok hok hoff with ⟨e', ht, hok', hd'⟩ | ht
  · obtain ⟨s', e1, g', sh, hel, hlf⟩ := g.upd hL hok' (if B.useDiff = true then some (B.newCacheToDiff (B.elemCache data)) else none)
      (by intro d hd he; rw [if_pos hd] at he; cases he; exact hd' hd)
    refine ⟨⟨l, o⟩, [], s', lvl, h, ?_, g', SzX.congr sh sz, Or.inl ⟨rfl, nofr _ _⟩, .inplace e' ht rfl rfl ?_ sh.lfitems⟩
    · simp only [insertByPath, getLf_ok hL, bind_ok, ht, e1, pure_ok]
    · exact entries_upd g.wf sh.order hel hent
  · by_cases c1 : o = 0 ∧ B.canMerge data e = true
    · obtain ⟨e', hml, hok', hcc⟩ := A.merge_left data e hok heok c1.2
      obtain ⟨s', e1, g', sh, hel, hlf⟩ := g.upd hL hok' (if B.useDiff = true then some (B.newCacheToDiff (B.elemCache data)) else none)
        (by intro d hd he; rw [if_pos hd] at he; cases he; exact diff_left A hd heok hcc)
      refine ⟨⟨l, 0⟩, [], s', lvl, h, ?_, g', SzX.congr sh sz, Or.inl ⟨rfl, nofr _ _⟩, .left e' ht c1.1 c1.2 hml rfl rfl ?_ sh.lfitems⟩
      · simp only [insertByPath, getLf_ok hL, bind_ok, ht, if_pos c1, hml, e1, pure_ok]
      · exact entries_upd g.wf sh.order hel hent
    · by_cases c2 : o = B.rleLen e ∧ B.canMerge e data = true
      · obtain ⟨e', hml, hok', hcc⟩ := A.merge_right e data heok hok c2.2
        obtain ⟨s', e1, g', sh, hel, hlf⟩ := g.upd hL hok' (if B.useDiff = true then some (B.newCacheToDiff (B.elemCache data)) else none)
          (by intro d hd he; rw [if_pos hd] at he; cases he; exact diff_right A hd heok hcc)
        refine ⟨⟨l, B.rleLen e⟩, [], s', lvl, h, ?_, g', SzX.congr sh sz, Or.inl ⟨rfl, nofr _ _⟩,
          .right e' ht c1 c2.1 c2.2 hml rfl rfl ?_ sh.lfitems⟩
        · simp only [insertByPath, getLf_ok hL, bind_ok, ht, if_neg c1, if_pos c2, hml, e1, pure_ok]
        · exact entries_upd g.wf sh.order hel hent
      · obtain ⟨info, s1, lvl1, h1, r1, g1, sz1, q1, q2, cut⟩ :=
          splitLeafIfNeeded_spec hm1 hm6 g sz (pos := ⟨l, o⟩) hle hoff hm
        have key : ∀ (i1 : Nat), Edge s1 info.parentIdx i1 (.leaf l) → (info.insertSlot = i1 ∨ info.insertSlot = i1 + 1) →
            ∃ s3 lvl' h', insertByPath B s ⟨l, o⟩ data = .ok ((⟨s1.lf.items.length, 0⟩, info.newLeaf.toList), s3) ∧
              Good A s3 lvl' h' ∧ Sz m s3 h' ∧ Steps (FullAbove s1 l) h1 h' ∧ s3.lf.items.length = s1.lf.items.length + 1 ∧
              (∀ U e V, entries s1 = U ++ (l, e) :: V →
                (info.insertSlot = i1 → entries s3 = U ++ (s1.lf.items.length, data) :: (l, e) :: V) ∧
                (info.insertSlot = i1 + 1 → entries s3 = U ++ (l, e) :: (s1.lf.items.length, data) :: V)) := by
          intro i1 hed1 hslot
          obtain ⟨s3, lvl', h', N1, hN1, hvi, t1, t2, t3, t5, t6, t7⟩ := insTail (B := B) hm1 hm6 g1 sz1 hed1 hslot hok
          refine ⟨s3, lvl', h', ?_, t2, t3, t5, t6, t7⟩
          have hg : (addLf s1 ⟨data, info.parentIdx⟩).getIn info.parentIdx = .ok N1 := getIn_ok hN1
          simp only [insertByPath, getLf_ok hL, bind_ok, ht, if_neg c1, if_neg c2, r1, allocLeafChild_eq, hg, hvi]
          obtain ⟨s2, w1, w2⟩ := bind_inv t1
          simp only [linkLeaf] at w1
          rw [w1]
          simp only [bind_ok, Node.isFull, decide_eq_true_eq]
          have hlen : ∀ y : Child C, (N1.children.take info.insertSlot ++ y :: N1.children.drop info.insertSlot).length =
              N1.children.length + 1 := by
            intro y
            conv => rhs; rw [← List.take_append_drop info.insertSlot N1.children]
            simp only [List.length_append, List.length_cons]
            omega
          rw [hlen, w2]
          rfl
        cases cut with
        | start i1 a1 a2 a3 a4 a5 a6 =>
          obtain ⟨s3, lvl', h', k1, k2, k3, k5, k7, k6⟩ := key i1 a3.edge (Or.inl a4)
          subst a2
          have a1 : o = 0 := a1
          obtain rfl : h1 = h := q2.resolve_right (fun ⟨_, ⟨_, _, h0, _⟩, _⟩ => by simp only at h0; omega) |>.1
          have k4 := k5.le
          refine ⟨_, _, s3, lvl', h', k1, k2, k3, one (by rw [a5]; rfl) k5, .before ht c1 c2 a1 rfl ?_ ((k6 U e V hent).1 a4) k7⟩
          rw [a5]; rfl
        | stop i1 e1 u v a0 a1 a2 a3 a4 a5 a6 =>
          obtain ⟨s3, lvl', h', k1, k2, k3, k5, k7, k6⟩ := key i1 a4.edge (Or.inr a5)
          subst a3
          have a1 : elm s1 l = some e1 := a1
          rw [hle] at a1
          cases a1
          obtain rfl : h1 = h := by
            rcases q2 with q2 | ⟨-, ⟨e9, h9, -, h0, -⟩, -⟩
            · exact q2.1
            · have h9 : elm s1 l = some e9 := h9
              rw [hle] at h9
              cases h9
              exact absurd a2 (Nat.ne_of_lt h0)
          have k4 := k5.le
          refine ⟨_, _, s3, lvl', h', k1, k2, k3, one (by rw [a6]; rfl) k5, .after ht c2 a0 a2 rfl ?_ ((k6 U e V hent).2 a5) k7⟩
          rw [a6]; rfl
        | cut i1 e1 a b u v a1 a2 a3 a4 a5 a6 a7 a8 a9 a10 a11 a12 a13 a14 =>
          obtain ⟨s3, lvl', h', k1, k2, k3, k5, k7, k6⟩ := key i1 a5.edge (Or.inr a7)
          have a2 : elm s l = some e1 := a2
          rw [hle] at a2
          cases a2
          have hst : Steps (InsRaises s l info.newLeaf.toList ⟨s1.lf.items.length, 0⟩) h h' := by
            have hcl : s1.lf.items.length ≠ l := by
              have := Arena.get_ge s.lf (i := l)
              intro e'
              rw [this (by omega)] at hL
              cases hL
            have hsp : info.newLeaf.toList ≠ [] := by rw [a8]; simp
            have a14 : FullAbove s1 l ↔ NearFull s l := a14
            rcases q2 with ⟨q2, q3⟩ | ⟨q2, ⟨_, _, _, _, q4⟩, q3⟩
            · have hnf : ¬ FullAbove s l := fun k => q3 ⟨e, hle, a1, a3, k⟩
              rw [← q2]
              exact k5.iff ⟨fun k => ⟨hcl, .inr ⟨hsp, a14.mp k⟩⟩, fun k => a14.mpr (k.2.resolve_left hnf).2⟩
            · rcases k5 with ⟨k5, -⟩ | ⟨-, k5⟩
              · exact .inr ⟨by omega, hcl, .inl q4⟩
              · have := k5.root_full
                omega
          have a11 : order s = u ++ l :: v := a11
          have a12 : order s1 = u ++ l :: s.lf.items.length :: v := a12
          have hent1 : entries s1 = U ++ (l, a) :: (s.lf.items.length, b) :: V := by
            rw [order_split a11 hle] at hent
            have hlen : (entriesOf s u).length = U.length := by
              have e1 := entriesOf_fst (ls := u) g.wf (fun x hx => (mem_order g.wf).mp (by rw [a11]; simp [hx]))
              have e2 := entries_fst g.wf
              have hh := hent
              rw [← order_split a11 hle] at hh
              have nd := order_nodup g.wf
              rw [hh, List.map_append, List.map_cons, a11] at e2
              rw [a11] at nd
              have := (nodup_append_cons_inj e2.symm nd).1
              rw [← List.length_map (f := Prod.fst) (as := entriesOf s u), e1, this, List.length_map]
            obtain ⟨rfl, h5⟩ := List.append_inj hent hlen
            obtain ⟨-, rfl⟩ := List.cons.inj h5
            have nd := order_nodup g1.wf
            rw [a12] at nd
            have hfl : l ≠ s.lf.items.length := fun e' => hfl e'.symm
            rw [order_split a12 (by rw [a13, if_neg hfl, if_pos rfl]), entriesOf_cons (by rw [a13, if_pos rfl])]
            rw [List.nodup_append] at nd
            obtain ⟨n1, n2, n3⟩ := nd
            have n4 := List.nodup_cons.mp n2
            have n5 := List.nodup_cons.mp n4.2
            rw [entriesOf_congr (s := s), entriesOf_congr (s := s) (ls := v)]
            · intro k hk
              rw [a13, if_neg, if_neg]
              · intro e; subst e; exact n4.1 (by simp [hk])
              · intro e; subst e; exact n5.1 hk
            · intro k hk
              rw [a13, if_neg, if_neg]
              · intro e; subst e; exact n3 k hk k (by simp) rfl
              · intro e; subst e; exact n3 _ hk _ (by simp) rfl
          refine ⟨_, _, s3, lvl', h', k1, k2, k3, hst, .cut a b ht a1 a3 a4 ?_ ?_ ?_ (by omega)⟩
          · rw [a10]
          · rw [a8]; rfl
          · exact (k6 _ _ _ hent1).2 a7

end
end GB

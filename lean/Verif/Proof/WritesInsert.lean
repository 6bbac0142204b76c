import Verif.Proof.Writes
import Verif.Proof.Insert

/-!
# The nodes written by `insert_by_path`, `push` and `prepend`
-/

namespace GB
variable {E C D : Type}
open Tree

section
variable {s s' s1 : Tree E C} {lvl : Nat → Nat} {h : Nat} {B : Trait E C D}

theorem vinsert_leaf_ranks {k x i l : Nat} {N : Node C} {c : C} {cs : List (Child C)} (f : Ranks k lvl h x N)
    (e : vinsert N.children i ⟨.leaf l, c⟩ = .ok cs) : Ranks k lvl h x { N with children := cs } := by
  unfold vinsert at e
  split at e
  · rename_i hb
    cases e
    simp only [MAXC] at hb
    refine ⟨f.par, ?_, f.top, by simp only [List.length_append, List.length_take, List.length_cons, List.length_drop]; omega⟩
    intro d hd y hy
    simp only [List.mem_append, List.mem_cons] at hd
    rcases hd with hd | rfl | hd
    · exact f.kid d (List.mem_of_mem_take hd) y hy
    · cases hy
    · exact f.kid d (List.mem_of_mem_drop hd) y hy
  · cases e

theorem vpush_eq_vinsert {α : Type} (l : List α) (x : α) : vpush l x = vinsert l l.length x := by
  simp [vpush, vinsert]

/-- a new leaf below `p`, the caches from `idx` up, and a split if `p` overflows -/
theorem newLeaf_writes {p i : Nat} {idx : Idx} {diff : Option D} {data : E} {N : Node C} {cs : List (Child C)} (r : Ranked lvl h s)
    (hN : s.inn.get p = some N) (hl : 1 ≤ lvl p) {c : C} {l : Nat} (hv : vinsert N.children i ⟨.leaf l, c⟩ = .ok cs) {b : Bool} {s2 : Tree E C}
    (e2 : recursiveUpdateCache B ((allocLeafChild B s data p).2.setIn p { N with children := cs }) idx b diff = .ok s2)
    (e : (if ({ N with children := cs } : Node C).isFull then split B s2 p else pure s2 : M (Tree E C)) = .ok s') :
    Writes s s' (23 * h + 6) := by
  have w1 : Writes s ((allocLeafChild B s data p).2.setIn p { N with children := cs }) 2 :=
    (Writes.insertLf s ⟨data, p⟩).trans (Writes.setIn _ _ _)
  have r1 : Ranked lvl h ((allocLeafChild B s data p).2.setIn p { N with children := cs }) :=
    Ranked.setIn (s := (allocLeafChild B s data p).2) (r.inn rfl) (vinsert_leaf_ranks (r p N hN) hv)
  have ht := (r p N hN).top
  obtain ⟨w2, r2⟩ := recursiveUpdateCache_writes r1 e2
  split at e
  · exact (w1.trans w2).seq (split_writes r2 e) (by omega)
  · cases e
    exact (w1.trans w2).mono (by omega)

/-- a pass of `split_leaf_if_needed` that needs no room -/
theorem splitLeafF_small {n : Nat} {pos : Cursor} {leaf : LeafNode E} {P : Node C} {info : SplitInfo}
    (hL : s.lf.get pos.leaf = some leaf) (hP : s.inn.get leaf.parent = some P) (hf : ¬ MAXC ≤ P.children.length + 1)
    (e : splitLeafIfNeededF B (n + 1) s pos = .ok (info, s')) : Writes s s' 3 := by
  rw [splitLeafIfNeededF] at e
  simp only [getLf_ok hL, getIn_ok hP, bind_ok, if_neg hf] at e
  obtain ⟨slot, -, e⟩ := bind_inv e
  obtain ⟨nb, -, e⟩ := bind_inv e
  split at e
  · cases e; exact (Writes.refl _).mono (by omega)
  · split at e
    · obtain ⟨np, -, e⟩ := bind_inv e
      cases e; exact (Writes.refl _).mono (by omega)
    · obtain ⟨-, -, e⟩ := bind_inv e
      obtain ⟨⟨a, b⟩, -, e⟩ := bind_inv e
      simp only at e
      obtain ⟨c, -, e⟩ := bind_inv e
      obtain ⟨cs, -, e⟩ := bind_inv e
      cases e
      exact ((Writes.setLf s pos.leaf { leaf with elem := a }).trans (Writes.insertLf _ ⟨b, leaf.parent⟩)).trans (Writes.setIn _ _ _)

variable {A : Law B}

theorem splitLeafIfNeeded_writes {m : Fill} (hm1 : 1 ≤ m.lo) (hm5 : m.lo + m.d ≤ 5) (g : Good A s lvl h) (sz : Sz m s h) {pos : Cursor} {e : E}
    (hel : elm s pos.leaf = some e) {info : SplitInfo} (hr : splitLeafIfNeeded B s pos = .ok (info, s')) : Writes s s' (22 * h + 6) := by
  obtain ⟨q, hq⟩ := Option.ne_none_iff_exists'.mp (elm_live hel)
  obtain ⟨i, hed⟩ := g.wf.lpar_edge hq
  obtain ⟨e2, hL, he2⟩ := getLf_of hq
  obtain ⟨N, hN⟩ := lnk_isSome.mp (edge_live hed)
  have hl := (g.wf.klf hed).1
  have r : Ranked lvl h s := g.ranked sz (fun _ h => h.elim)
  have ht := (r q N hN).top
  by_cases hf : MAXC ≤ N.children.length + 1
  · have szq := (sz q (edge_live hed) (fun h => h)).1
    simp only [MAXC] at hf
    have hlen : (chs s q).length = 11 := by rw [chs_of hN] at szq ⊢; omega
    obtain ⟨s1, lvl1, h1', r1, r2, r3, r4, -, -, -, r8⟩ := split_spec hm1 (by omega) g (edge_live hed)
      (fun y hy hyx => sz y hy (fun h => h)) (by omega) (by omega) (by omega)
    have hel1 : elm s1 pos.leaf = some e := by rw [r4.elm]; exact hel
    obtain ⟨q1, hq1⟩ := Option.ne_none_iff_exists'.mp (elm_live hel1)
    obtain ⟨i1, hed1⟩ := r2.wf.lpar_edge hq1
    obtain ⟨e3, hL1, he3⟩ := getLf_of hq1
    obtain ⟨N1, hN1⟩ := lnk_isSome.mp (edge_live hed1)
    have hs : ¬ MAXC ≤ N1.children.length + 1 := by
      obtain ⟨q2, k1, k2⟩ := r8 _ (mem_kids.mpr ⟨i, hed⟩)
      obtain ⟨i2, hed2⟩ := mem_kids.mp k1
      obtain ⟨rfl, -⟩ := r2.wf.kid_lf_inj hed1 hed2
      rw [chs_of hN1] at k2
      simp only [MAXC]
      omega
    rw [splitLeafIfNeeded, splitLeafF_head g.wf (Sz.ne sz hm1) hL hed hN] at hr
    split at hr
    · cases hr; exact (Writes.refl _).mono (by omega)
    · split at hr
      · obtain ⟨np, -, hr⟩ := bind_inv hr
        cases hr; exact (Writes.refl _).mono (by omega)
      · obtain ⟨-, -, hr⟩ := bind_inv hr
        rw [if_pos (by simp only [MAXC]; omega), r1] at hr
        exact (split_writes r r1).seq (splitLeafF_small hL1 hN1 hs hr) (by omega)
  · exact (splitLeafF_small hL hN hf hr).mono (by omega)

theorem insertByPath_writes {m : Fill} (hm1 : 1 ≤ m.lo) (hm5 : m.lo + m.d ≤ 5) (g : Good A s lvl h) (sz : Sz m s h) {cur c : Cursor} {e data : E}
    (hel : elm s cur.leaf = some e) (hoff : cur.offset ≤ B.rleLen e) {sp : List Nat}
    (hr : insertByPath B s cur data = .ok ((c, sp), s')) : Writes s s' (45 * h + 35) := by
  obtain ⟨q, hq⟩ := Option.ne_none_iff_exists'.mp (elm_live hel)
  obtain ⟨e2, hL, he2⟩ := getLf_of hq
  rw [hel] at he2
  cases he2
  have r : Ranked lvl h s := g.ranked sz (fun _ h => h.elim)
  have one : ∀ {e' : E} {diff : Option D} {s2 : Tree E C}, recursiveUpdateCache B (s.setLf cur.leaf ⟨e', q⟩) (.leaf cur.leaf) B.useDiff diff = .ok s2 →
      Writes s s2 (45 * h + 35) := fun k =>
    (Writes.setLf _ _ _).seq (recursiveUpdateCache_writes (r.setLf _ _) k).1 (by omega)
  unfold insertByPath at hr
  simp only [getLf_ok hL, bind_ok] at hr
  obtain ⟨ti, -, hr⟩ := bind_inv hr
  split at hr
  · obtain ⟨s2, k, hr⟩ := bind_inv hr
    cases hr
    exact one k
  · split at hr
    · obtain ⟨e', -, hr⟩ := bind_inv hr
      obtain ⟨s2, k, hr⟩ := bind_inv hr
      cases hr
      exact one k
    · split at hr
      · obtain ⟨e', -, hr⟩ := bind_inv hr
        obtain ⟨s2, k, hr⟩ := bind_inv hr
        cases hr
        exact one k
      · obtain ⟨info, s1, lvl1, h1, r1, g1, sz1, q1, q2, cut⟩ := splitLeafIfNeeded_spec hm1 (by omega) g sz (pos := cur) hel hoff (.inl hm5)
        have w1 := splitLeafIfNeeded_writes hm1 hm5 g sz hel r1
        have hh := q2.le
        rw [r1] at hr
        simp only [bind_ok] at hr
        obtain ⟨N, hN, hr⟩ := bind_inv hr
        obtain ⟨cs, hv, hr⟩ := bind_inv hr
        have hN := getIn_inv hN
        have hl := (g1.wf.lvl_pos _ N hN).1
        obtain ⟨s2, k1, hr⟩ := bind_inv hr
        obtain ⟨s3, k2, hr⟩ := bind_inv hr
        cases hr
        have w2 := newLeaf_writes (B := B) (g1.ranked sz1 (fun _ h => h.elim)) hN hl hv k1 k2
        exact w1.seq w2 (by omega)

theorem push_writes {m : Fill} (g : Good A s lvl h) (sz : Sz m s h) {e : E} {c : Cursor} (hr : push B s e = .ok (c, s')) :
    Writes s s' (23 * h + 6) := by
  have r : Ranked lvl h s := g.ranked sz (fun _ h => h.elim)
  unfold push at hr
  obtain ⟨em, -, hr⟩ := bind_inv hr
  split at hr
  · obtain ⟨N, hN, hr⟩ := bind_inv hr
    obtain ⟨cs, hv, hr⟩ := bind_inv hr
    obtain ⟨s2, k, hr⟩ := bind_inv hr
    cases hr
    rw [vpush_eq_vinsert] at hv
    have hN : s.inn.get s.root = some N := getIn_inv hN
    have w1 : Writes s ((allocLeafChild B s e s.root).2.setIn s.root { N with children := cs }) 2 :=
      (Writes.insertLf s ⟨e, s.root⟩).trans (Writes.setIn _ _ _)
    have r1 : Ranked lvl h ((allocLeafChild B s e s.root).2.setIn s.root { N with children := cs }) :=
      Ranked.setIn (s := (allocLeafChild B s e s.root).2) (r.inn rfl) (vinsert_leaf_ranks (r _ N hN) hv)
    exact w1.seq (recursiveUpdateCache_writes r1 k).1 (by omega)
  · obtain ⟨ol, -, hr⟩ := bind_inv hr
    obtain ⟨l, -, hr⟩ := bind_inv hr
    obtain ⟨leaf, -, hr⟩ := bind_inv hr
    split at hr
    · obtain ⟨e', -, hr⟩ := bind_inv hr
      obtain ⟨s2, k, hr⟩ := bind_inv hr
      cases hr
      exact (Writes.setLf _ _ _).seq (recursiveUpdateCache_writes (r.setLf _ _) k).1 (by omega)
    · obtain ⟨N, hN, hr⟩ := bind_inv hr
      obtain ⟨cs, hv, hr⟩ := bind_inv hr
      obtain ⟨s2, k1, hr⟩ := bind_inv hr
      obtain ⟨s3, k2, hr⟩ := bind_inv hr
      cases hr
      rw [vpush_eq_vinsert] at hv
      have hN : s.inn.get leaf.parent = some N := getIn_inv hN
      exact newLeaf_writes (B := B) r hN (g.wf.lvl_pos _ N hN).1 hv k1 k2

theorem prepend_writes {m : Fill} (g : Good A s lvl h) (sz : Sz m s h) {e : E} {c : Cursor} (hr : prepend B s e = .ok (c, s')) :
    Writes s s' (23 * h + 6) := by
  have r : Ranked lvl h s := g.ranked sz (fun _ h => h.elim)
  unfold prepend at hr
  obtain ⟨fl, -, hr⟩ := bind_inv hr
  split at hr
  · obtain ⟨N, hN, hr⟩ := bind_inv hr
    obtain ⟨cs, hv, hr⟩ := bind_inv hr
    cases hr
    exact (Writes.insertLf s ⟨e, s.root⟩).seq (Writes.setIn _ _ _) (by omega)
  · obtain ⟨leaf, -, hr⟩ := bind_inv hr
    split at hr
    · obtain ⟨e', -, hr⟩ := bind_inv hr
      obtain ⟨s2, k, hr⟩ := bind_inv hr
      cases hr
      exact (Writes.setLf _ _ _).seq (recursiveUpdateCache_writes (r.setLf _ _) k).1 (by omega)
    · obtain ⟨N, hN, hr⟩ := bind_inv hr
      obtain ⟨cs, hv, hr⟩ := bind_inv hr
      obtain ⟨s2, k1, hr⟩ := bind_inv hr
      obtain ⟨s3, k2, hr⟩ := bind_inv hr
      cases hr
      have hN : s.inn.get leaf.parent = some N := getIn_inv hN
      exact newLeaf_writes (B := B) r hN (g.wf.lvl_pos _ N hN).1 hv k1 k2

end
end GB

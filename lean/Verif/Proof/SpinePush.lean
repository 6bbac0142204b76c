import Verif.Proof.Spine
import Verif.Proof.Path
import Verif.Proof.Sample

/-!
# `push` keeps the right edge the only wide part of the tree, and the exact height that follows
-/

namespace GB
variable {E C D : Type}
open Tree

section
variable {s s' : Tree E C} {lvl : Nat → Nat} {h p : Nat} {B : Trait E C D} {A : Law B}

theorem getLast?_app {α : Type} {u v : List α} (hv : v ≠ []) : (u ++ v).getLast? = v.getLast? := by
  rw [List.getLast?_append]
  cases hg : v.getLast? with
  | none => exact absurd (List.getLast?_eq_none_iff.mp hg) hv
  | some a => rfl

/-- a new leaf at the end -/
theorem Packed.link (r : LeafEdit s s' p) (w : WF s lvl h) (hl : lvl p = 1) (hs : Spine s p) (pk : Packed s) :
    Spine s' p ∧ Packed s' := by
  have key : ∀ y, Spine s y → Spine s' y := by
    intro y hy
    induction hy with
    | root => rw [← r.root]; exact .root
    | @last q y _ hl' ih =>
      by_cases hq : q = p
      · subst hq
        have := (w.kin (getLast?_edge hl')).1
        have := (w.lvl_pos' (by rw [(w.kin (getLast?_edge hl')).2]; simp : lnk s y ≠ none)).1
        omega
      · exact .last ih (by rw [r.kids_ne hq]; exact hl')
  refine ⟨key p hs, ?_⟩
  intro y hy
  by_cases hyp : y = p
  · subst hyp; exact Or.inl (key _ hs)
  · rw [r.lnk] at hy
    rcases pk y hy with h | h
    · exact Or.inl (key y h)
    · exact Or.inr (by rw [r.chs y hyp]; exact h)

theorem row_step (w : WF s lvl h) {d : Nat} (hd : d < h) {a : Idx} (ha : (rowI s (d + 1)).getLast? = some a) (ne : NE s) :
    ∃ x, (rowI s d).getLast? = some (.internal x) ∧ (kids s x).getLast? = some a := by
  cases hr : (rowI s d).getLast? with
  | none =>
    rw [rowI, List.getLast?_eq_none_iff.mp hr] at ha
    cases ha
  | some b =>
    obtain ⟨u, hu⟩ := getLast_split hr
    obtain ⟨x, rfl, hx, hlx⟩ := rowI_internal w d hd b (by rw [hu]; simp)
    refine ⟨x, rfl, ?_⟩
    rw [rowI, hu, List.flatMap_append, List.flatMap_singleton, kidsI] at ha
    have hk : kids s x ≠ [] := by
      intro hk
      by_cases hxr : x = s.root
      · subst hxr
        have : d = 0 := by rw [w.root_lvl] at hlx; omega
        subst this
        have : u = [] := by
          have := congrArg List.length hu
          simp [rowI] at this
          exact this
        subst this
        rw [hk] at ha
        cases ha
      · exact ne x hx hxr (kids_ne_nil.mp hk)
    rw [getLast?_app hk] at ha
    exact ha

theorem row_last_spine (w : WF s lvl h) (ne : NE s) : ∀ d, d < h → ∀ x, (rowI s d).getLast? = some (.internal x) → Spine s x := by
  intro d
  induction d with
  | zero =>
    intro _ x hx
    simp only [rowI, List.getLast?_singleton, Option.some.injEq, Idx.internal.injEq] at hx
    subst hx
    exact .root
  | succ d ih =>
    intro hd x hx
    obtain ⟨y, h1, h2⟩ := row_step w (by omega) hx ne
    exact .last (ih (by omega) y h1) h2

/-- the last leaf hangs on the right edge -/
theorem last_leaf_spine (w : WF s lvl h) (ne : NE s) {l q i : Nat} (hl : (order s).getLast? = some l)
    (he : Edge s q i (.leaf l)) : Spine s q := by
  have hr : (rowI s h).getLast? = some (.leaf l) := by rw [row_order w, List.getLast?_map, hl]; rfl
  have hp := w.h_pos
  obtain ⟨d, rfl⟩ : ∃ d, h = d + 1 := ⟨h - 1, by omega⟩
  obtain ⟨x, h1, h2⟩ := row_step w (by omega) hr ne
  have := (w.kid_inj (getLast?_edge h2) he).1
  subst this
  exact row_last_spine w ne d (by omega) _ h1

/-- link, repair, split -/
theorem link_packed {m : Fill} (hm1 : 1 ≤ m.lo) (g : Good A s lvl h) (sz : Sz m s h)
    {N : Node C} (hN : s.inn.get p = some N) (hl : lvl p = 1) (hne : chs s p ≠ [] ∨ p = s.root) {j : Nat} {data : E}
    (hdata : A.okE data) (diff : Option D)
    (hdiff : diff = none ∨ diff = some (B.newCacheToDiff (B.elemCache data))) (hsp : Spine s p) (pk : Packed s) {s3 : Tree E C}
    (hs3 : (do
        let s2 ← recursiveUpdateCache B (linkLeaf B s p j data N) (.internal p) B.useDiff diff
        if MAXC ≤ N.children.length + 1 then split B s2 p else pure s2 : M (Tree E C)) = .ok s3) : Packed s3 := by
  obtain ⟨r, hch, hk, hel⟩ := linkLeaf_spec (B := B) g.wf hN hl j data
  have hp : lnk s p ≠ none := lnk_isSome.mpr ⟨N, hN⟩
  obtain ⟨s2, e2, sh, -, g2⟩ := ins_climb (s' := linkLeaf B s p j data N) g hp hl hne hdata rfl r hch (lpar_fresh s) hel (.internal p) (Or.inl rfl) diff hdiff
  rw [e2] at hs3
  simp only [bind_ok] at hs3
  obtain ⟨sp1, pk1⟩ := pk.link r g.wf hl hsp
  have pk2 := pk1.shape sh
  have sp2 := sp1.shape sh
  have hp2 : lnk s2 p ≠ none := (sh.live p).mpr (by rw [r.lnk]; exact hp)
  have hlen : (chs s2 p).length = N.children.length + 1 := by
    rw [sh.len, hch, chs_of hN]
    conv => rhs; rw [← List.take_append_drop j N.children]
    simp only [List.length_append, List.length_cons]
    omega
  have szp := (sz p hp (fun h => h)).1
  rw [chs_of hN] at szp
  split at hs3
  · next hfull =>
    simp only [MAXC] at hfull
    refine splitF_packed (A := A) _ s2 lvl h p g2.wf g2.cok hp2 ?_ (by omega) (by omega) sp2 pk2 s3 hs3
    intro y hy hyp
    rw [sh.len, r.chs y hyp]
    have hy := (sh.live y).mp hy
    rw [r.lnk] at hy
    exact (sz y hy (fun h => h)).1
  · cases hs3; exact pk2

theorem push_packed {m : Fill} (hm1 : 1 ≤ m.lo) (g : Good A s lvl h) (sz : Sz m s h) {e : E} (hok : A.okE e)
    (pk : Packed s) {c : Cursor} (hs : push B s e = .ok (c, s')) : Packed s' := by
  have ne := Sz.ne sz hm1
  have hie := isEmpty_spec g.wf ne
  by_cases hemp : order s = []
  · have hc := (empty_iff g.wf ne).mp hemp
    obtain ⟨i, hi⟩ := g.wf.root'
    have hget := get_of_lnk hi
    simp only [push, hie, hemp, bind_ok, List.isEmpty_nil, if_true, allocLeafChild_eq] at hs
    have hg : (addLf s ⟨e, s.root⟩).getIn s.root = .ok ⟨none, i, chs s s.root⟩ := getIn_ok hget
    simp only [root_addLf, hg, bind_ok, hc, vpush, List.length_nil, MAXC, Nat.reduceLT, if_true, List.nil_append,
      setIn_root] at hs
    obtain ⟨s2, q1, q2⟩ := bind_inv hs
    cases q2
    refine link_packed hm1 (g.reset hc) (Sz.reset sz) hget rfl (Or.inr rfl) (j := 0) hok _ (diff_cases B e) .root pk (s3 := s') ?_
    simp only [linkLeaf, hc, List.take_nil, List.drop_nil, List.nil_append]
    rw [q1]
    simp [MAXC, pure, Except.pure, bind_ok]
  · obtain ⟨l, hl⟩ : ∃ l, (order s).getLast? = some l := by
      cases hg : (order s).getLast? with
      | none => exact absurd (by simpa using hg) hemp
      | some l => exact ⟨l, rfl⟩
    obtain ⟨x, q, i, N, hL, hx, hed, hN, hl1, hiN⟩ := leaf_get g.wf (l := l) (List.mem_of_getLast? hl)
    have hemp' : (order s).isEmpty = false := by
      cases ho : order s with
      | nil => exact absurd ho hemp
      | cons => rfl
    have szq := (sz q (edge_live hed) (fun h => h)).1
    rw [chs_of hN] at szq
    have hg : (addLf s ⟨e, q⟩).getIn q = .ok N := getIn_ok hN
    simp only [push, hie, hemp', bind_ok, Bool.false_eq_true, if_false, lastLeaf_spec g.wf ne, hl, unwrap,
      getLf_ok hL, allocLeafChild_eq, hg, Node.isFull, decide_eq_true_eq] at hs
    split at hs
    · obtain ⟨x', -, hs⟩ := bind_inv hs
      obtain ⟨s2, h2, hs⟩ := bind_inv hs
      cases hs
      exact (pk.shape (SameShape.setLf (N' := ⟨x', q⟩) hL rfl)).shape (recursiveUpdateCache_shape h2)
    · rw [vpush_ok _ szq] at hs
      simp only [bind_ok] at hs
      obtain ⟨s2, h2, hs⟩ := bind_inv hs
      obtain ⟨s3, h3, hs⟩ := bind_inv hs
      cases hs
      refine link_packed hm1 g sz hN hl1 (by left; rw [chs_of hN]; intro e; rw [e] at hiN; simp at hiN)
        (j := N.children.length) hok _ (diff_cases B e) (last_leaf_spine g.wf ne hl hed) pk (s3 := s') ?_
      simp only [linkLeaf]
      rw [h2]
      have hlen : ∀ y : Child C, (N.children.take N.children.length ++ y :: N.children.drop N.children.length).length =
        N.children.length + 1 := by intro y; simp
      rw [hlen] at h3
      exact h3

/-! ## Counting -/

theorem spine_row (w : WF s lvl h) {x : Nat} (hx : Spine s x) (hlv : lnk s x ≠ none) :
    (rowI s (h - lvl x)).getLast? = some (.internal x) := by
  induction hx with
  | root => rw [w.root_lvl, Nat.sub_self]; rfl
  | @last p x _ hl ih =>
    have he := getLast?_edge hl
    have h1 := (w.kin he).1
    have h2 := w.lvl_pos' (edge_live he)
    have ih := ih (edge_live he)
    obtain ⟨u, hu⟩ := getLast_split ih
    have h3 := w.lvl_pos' hlv
    rw [show h - lvl x = (h - lvl p) + 1 by omega, rowI, hu, List.flatMap_append, List.flatMap_singleton, kidsI,
      getLast?_app]
    · exact hl
    · intro e; rw [e] at hl; cases hl

/-- each level is at most six times as wide as the one above, plus five -/
theorem row_width {m : Fill} (w : WF s lvl h) (sz : Sz m s h) (pk : Packed s) {d : Nat} (hd : d < h) (hne : rowI s d ≠ []) :
    (rowI s (d + 1)).length ≤ 6 * (rowI s d).length + 5 := by
  obtain ⟨u, a, hu⟩ : ∃ u a, rowI s d = u ++ [a] := ⟨_, _, (List.dropLast_concat_getLast hne).symm⟩
  have nd := row_nodup w d
  have hfront : ∀ b ∈ u, (kidsI s b).length ≤ 6 := by
    intro b hb
    obtain ⟨x, rfl, hx, hlx⟩ := rowI_internal w d hd b (by rw [hu]; simp [hb])
    rcases pk x hx with hsp | h6
    · exfalso
      have := spine_row w hsp hx
      rw [show h - lvl x = d by omega, hu, List.getLast?_concat, Option.some.injEq] at this
      subst this
      rw [hu] at nd
      exact (List.nodup_append.mp nd).2.2 _ hb _ (by simp) rfl
    · simpa [kidsI, kids_chs] using h6
  have hsum : ∀ v : List Idx, (∀ b ∈ v, (kidsI s b).length ≤ 6) → (v.flatMap (kidsI s)).length ≤ 6 * v.length := by
    intro v
    induction v with
    | nil => intro _; simp
    | cons b v ih =>
      intro hv
      have h1 := hv b (by simp)
      have h2 := ih (fun c hc => hv c (by simp [hc]))
      simp only [List.flatMap_cons, List.length_append, List.length_cons]
      omega
  obtain ⟨x, rfl, hx, -⟩ := rowI_internal w d hd a (by rw [hu]; simp)
  have hlast : (kidsI s (.internal x)).length ≤ 11 := by
    simpa [kidsI, kids_chs] using (sz x hx (fun h => h)).1
  have := hsum u hfront
  rw [rowI, hu, List.flatMap_append, List.flatMap_singleton]
  simp only [List.length_append, List.length_cons, List.length_nil]
  omega

/-- a packed tree of height `h` has fewer than `2 * 6 ^ h` elements -/
theorem packed_length {m : Fill} (hm : 1 ≤ m.lo) (w : WF s lvl h) (sz : Sz m s h) (pk : Packed s) : (entries s).length < 2 * 6 ^ h := by
  have key : ∀ d, d ≤ h → (rowI s d).length < 2 * 6 ^ d := by
    intro d
    induction d with
    | zero => intro _; simp [rowI]
    | succ d ih =>
      intro hd
      have h1 := ih (by omega)
      by_cases hne : rowI s d = []
      · rw [rowI, hne]
        have := Nat.pow_pos (n := d + 1) (show 0 < 6 by omega)
        simp only [List.flatMap_nil, List.length_nil]
        omega
      · have := row_width w sz pk (by omega) hne
        rw [Nat.pow_succ]
        omega
  have := key h (Nat.le_refl _)
  rw [row_order w, List.length_map] at this
  rw [← entries_fst w, List.length_map] at this
  exact this

end

/-- pushing any elements onto a packed tree -/
theorem pushList_packed {B : Trait E C D} {A : Law B} {m : Fill} (hm1 : 1 ≤ m.lo) (hm6 : m.lo + m.d ≤ 6) : ∀ (es : List E) (s : Tree E C),
    Inv A m s → Packed s → (∀ e ∈ es, A.okE e) → ∃ s', pushList B s es = .ok s' ∧ Inv A m s' ∧ Packed s' := by
  intro es
  induction es with
  | nil => intro s hi pk _; exact ⟨s, rfl, hi, pk⟩
  | cons e es ih =>
    intro s ⟨h, ⟨lvl, g⟩, sz⟩ pk hes
    obtain ⟨c, s1, lvl', h', e1, g1, sz1, -, r⟩ := push_spec hm1 hm6 g sz (hes e (by simp))
    obtain ⟨s2, e2, i2, p2⟩ := ih s1 ⟨h', ⟨lvl', g1⟩, sz1⟩ (push_packed hm1 g sz (hes e (by simp)) pk e1)
      (fun x hx => hes x (by simp [hx]))
    exact ⟨s2, by simp only [pushList, e1, bind_ok, e2], i2, p2⟩

theorem new_packed (B : Trait E C D) : Packed (newTree B) := by
  intro y hy
  obtain ⟨N, hN⟩ := lnk_isSome.mp hy
  rw [new_get] at hN
  split at hN
  · next h => subst h; exact Or.inl .root
  · cases hN

end GB

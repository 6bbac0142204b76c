import Verif.Proof.DrainNew
import Verif.Proof.DrainClimb
import Verif.Proof.PathCap

/-!
# `drain` from creation to drop
-/

namespace GB
variable {E C D : Type} {B : Trait E C D} {A : Law B}
open Tree

section
variable {s : Tree E C} {lvl : Nat → Nat} {h : Nat} {X Y Z : List Nat}

/-- the end of `Drain::new`, once both cuts are made -/
theorem drainNew_paths (w : WF s lvl h) (ne : NE s) (hh : h ≤ 9) (ho : order s = X ++ Y ++ Z) {st : Nat} (hst : (Y ++ Z).head? = some st)
    (hpos : ∀ l, Z.head? = some l → ∀ x, elm s l = some x → 0 < B.rleLen x) :
    ∃ sp ep e, Cuts s X Y Z st e ∧ RPath s st h sp.reverse ∧ RPath s e h ep.reverse ∧
      DS s h X [] Y Z (⟨s, sp, false, Z.head?.map (fun l => ⟨l, 0⟩), some ⟨sp, ep, X.getLast?.map .leaf, Z.head?.map .leaf⟩⟩ : Drain E C) ∧
      (do
        let sp ← getPath s (.leaf st)
        let el ← (match (Z.head?.map (fun l => ⟨l, 0⟩) : Option Cursor) with
          | some c => pure c.leaf
          | none => do unwrap (← lastLeaf s) : M Nat)
        let ep ← getPath s (.leaf el)
        let sLast ← unwrap sp.head?
        let before ← (if (0 : Nat) = 0 then prevSameLevel s sLast.arena
          else pure (some sLast.arena) : M (Option Idx))
        let eLast ← unwrap ep.head?
        let after ← (match (Z.head?.map (fun l => ⟨l, 0⟩) : Option Cursor) with
          | some e => do
            let leaf ← s.getLf e.leaf
            if B.rleLen leaf.elem = e.offset then nextSameLevel s eLast.arena
            else pure (some eLast.arena)
          | none => pure none : M (Option Idx))
        pure ⟨s, sp, false, Z.head?.map (fun l => ⟨l, 0⟩), some ⟨sp, ep, before, after⟩⟩ : M (Drain E C)) =
      .ok ⟨s, sp, false, Z.head?.map (fun l => ⟨l, 0⟩), some ⟨sp, ep, X.getLast?.map .leaf, Z.head?.map .leaf⟩⟩ := by
  have nd := order_nodup w
  have live : ∀ l, l ∈ X ++ Y ++ Z → lpar s l ≠ none := by
    intro l hl; rw [← ho, mem_order w] at hl; exact hl
  have hstm : st ∈ Y ++ Z := List.mem_of_head? hst
  have hlst := live st (by rw [List.append_assoc]; exact List.mem_append.mpr (Or.inr hstm))
  obtain ⟨i, rest, p1, p2, p3⟩ := getPath_leaf w hh hlst
  obtain ⟨YZ, hYZ⟩ : ∃ t, Y ++ Z = st :: t := by
    cases hc : Y ++ Z with
    | nil => rw [hc] at hst; cases hst
    | cons a t => rw [hc] at hst; cases hst; exact ⟨t, rfl⟩
  have hbef : prevSameLevelLeaf s st = .ok (X.getLast?.map .leaf) := by
    obtain ⟨u, v, o1, o2⟩ := prevSameLevelLeaf_spec w ne hlst
    have ho' : order s = X ++ st :: YZ := by rw [ho, List.append_assoc, hYZ]
    rw [o1] at nd
    obtain ⟨rfl, -⟩ := nodup_append_cons_inj (o1.symm.trans ho') nd
    exact o2
  have hds : ∀ ep : List PIdx, DS s h X [] Y Z (⟨s, ⟨.leaf st, i⟩ :: rest, false, Z.head?.map (fun l => ⟨l, 0⟩), some ⟨⟨.leaf st, i⟩ :: rest, ep, X.getLast?.map .leaf, Z.head?.map .leaf⟩⟩ : Drain E C) := by
    intro ep
    refine ⟨by rw [ho]; simp, rfl, rfl, rfl, ?_, rfl, ?_, Or.inr ⟨st, i, rest, hst, rfl, rfl, p2, p3⟩⟩
    · intro l; simp
    · have hs : ((Z.head?.map (fun l => ⟨l, 0⟩) : Option Cursor)).map Cursor.leaf = Z.head? := by cases Z.head? <;> rfl
      refine ⟨fun y hy hc => ?_, fun _ => hs⟩
      have hc : Z.head? = some y := hs.symm.trans hc
      have nd := order_nodup w
      rw [ho, List.nodup_append] at nd
      exact nd.2.2 y (by simp [hy]) y (List.mem_of_head? hc) rfl
  cases hZ : Z with
  | nil =>
    subst hZ
    have hYne : Y ≠ [] := by rintro rfl; cases hYZ
    obtain ⟨e, hY⟩ : ∃ e, Y.getLast? = some e := Option.ne_none_iff_exists'.mp (by simpa using hYne)
    have hlast : lastLeaf s = .ok (some e) := by
      rw [lastLeaf_spec w ne, ho, List.append_nil, List.getLast?_append, hY]; rfl
    have hle := live e (by have := List.mem_of_getLast? hY; simp [this])
    obtain ⟨j, rest', q1, q2, q3⟩ := getPath_leaf w hh hle
    refine ⟨_, ⟨.leaf e, j⟩ :: rest', e, ⟨ho, hst, Or.inr ⟨rfl, hY⟩⟩, RPath.of p2 p3, RPath.of q2 q3, hds _, ?_⟩
    simp only [p1, bind_ok, List.head?_nil, Option.map_none, hlast, unwrap_some, q1, List.head?_cons, prevSameLevel, hbef, if_true, pure_ok]
  | cons e Z' =>
    subst hZ
    have hle := live e (by simp)
    obtain ⟨j, rest', q1, q2, q3⟩ := getPath_leaf w hh hle
    refine ⟨_, ⟨.leaf e, j⟩ :: rest', e, ⟨ho, hst, Or.inl rfl⟩, RPath.of p2 p3, RPath.of q2 q3, hds _, ?_⟩
    obtain ⟨p, hlp⟩ := Option.ne_none_iff_exists'.mp hle
    obtain ⟨x, hL, hx⟩ := getLf_of hlp
    have hp := hpos e rfl x hx
    have hL' : s.getLf e = .ok ⟨x, p⟩ := by simp only [getLf, hL, unwrap_some]
    simp only [p1, bind_ok, List.head?_cons, Option.map_some, unwrap_some, q1, prevSameLevel, hbef, if_true, pure_ok, hL']
    rw [if_neg (by omega)]
    rfl

/-- `Drain::drop` in three parts -/
theorem drainDrop_parts {d d' : Drain E C} {rest : List E} {st : TempStore} {v s' : Tree E C} (hf : drainFinish (leafFuel d.tree) d = .ok (rest, d'))
    (hst : d'.store = some st)
    (hb : (do
      assertM (decide (2 ≤ st.startPath.reverse.length))
      let level := st.startPath.reverse.length - 2
      let a ← vget st.startPath.reverse level
      let s ← filterDeleted d'.tree a.arena
      let b ← vget st.endPath.reverse level
      let s ← filterDeleted s b.arena
      let (level, deleted, s) ← dropLoop1 st.startPath.reverse st.endPath.reverse level s []
      let (deleted, s) ← dropLoop2 st.startPath.reverse level s deleted
      purgeAll s deleted : M (Tree E C)) = .ok v)
    (ht : dropTail B st.before st.after v = .ok s') : drainDrop B d = .ok (rest, s') := by
  obtain ⟨_, k1, hb⟩ := bind_inv hb
  obtain ⟨a, k2, hb⟩ := bind_inv hb
  obtain ⟨s1, k3, hb⟩ := bind_inv hb
  obtain ⟨b, k4, hb⟩ := bind_inv hb
  obtain ⟨s2, k5, hb⟩ := bind_inv hb
  obtain ⟨⟨lv, del, s3⟩, k6, hb⟩ := bind_inv hb
  obtain ⟨⟨del', s4⟩, k7, hb⟩ := bind_inv hb
  simp only at hb
  unfold dropTail at ht
  obtain ⟨s5, k8, ht⟩ := bind_inv ht
  simp only [drainDrop, hf, bind_ok, hst, unwrap_some, k1, k2, k3, k4, k5, k6, k7, hb]
  refine (congrArg (fun r => r >>= _) k8).trans ?_
  rw [bind_ok]
  refine (congrArg (fun r => r >>= _) ht).trans ?_
  rfl

theorem entriesOf_live {s : Tree E C} {ls : List Nat} (hl : ∀ l ∈ ls, elm s l ≠ none) (k : Nat) :
    ((entriesOf s ls).take k).map Prod.snd = (ls.take k).filterMap (elm s) ∧ ((entriesOf s ls).drop k).map Prod.snd = (ls.drop k).filterMap (elm s) := by
  induction ls generalizing k with
  | nil => simp
  | cons l ls ih =>
    obtain ⟨e, he⟩ := Option.ne_none_iff_exists'.mp (hl l (by simp))
    have ih := ih (fun x hx => hl x (by simp [hx]))
    rw [entriesOf_cons he]
    cases k with
    | zero => have := (ih 0).2; simp only [List.drop_zero] at this; simp [he, this]
    | succ k => simp [he, ih k]

/-- taking `k` elements and dropping, on a tree cut at both ends -/
theorem drain_run {m : Fill} (hm1 : 1 ≤ m.lo) (hm5 : m.lo + m.d ≤ 5) (g : Good A s lvl h) (sz : Sz m s h) (hh : h ≤ 9) {sp ep : List PIdx} {y e k : Nat} {d : Drain E C} (c : Cuts s X Y Z y e)
    (rs : RPath s y h sp.reverse) (re : RPath s e h ep.reverse) (t : DS s h X [] Y Z d)
    (hst : d.store = some ⟨sp, ep, X.getLast?.map .leaf, Z.head?.map .leaf⟩) :
    ∃ d' s' lvl' h', drainTake k d = .ok (((entriesOf s Y).take k).map Prod.snd, d') ∧
      drainDrop B d' = .ok (((entriesOf s Y).drop k).map Prod.snd, s') ∧ Good A s' lvl' h' ∧ Sz m.drained s' h' ∧ h' ≤ h ∧
      order s' = X ++ Z ∧ entries s' = entriesOf s X ++ entriesOf s Z ∧ s'.lf.items.length = s.lf.items.length := by
  have th := Thin.of_sz hm1 sz
  have nd := order_nodup g.wf
  rw [c.ord] at nd
  have live : ∀ l ∈ Y, elm s l ≠ none := by
    intro l hl
    have : lpar s l ≠ none := by rw [← mem_order g.wf, c.ord]; simp [hl]
    obtain ⟨p, hp⟩ := Option.ne_none_iff_exists'.mp this
    obtain ⟨x, -, hx⟩ := getLf_of hp
    rw [hx]; simp
  obtain ⟨E1, E2⟩ := entriesOf_live live k
  rw [E1, E2]
  obtain ⟨d1, a1, a2, a3⟩ := drainTake_spec g.wf th.ne k [] Y d t
  have hlen : (Y.drop k).length < leafFuel d1.tree := by
    have h1 := order_length_le g.wf
    have h2 := a2.items
    rw [c.ord] at h1
    simp only [List.length_append, List.length_drop, leafFuel] at h1 ⊢
    omega
  obtain ⟨d2, b1, b2, b3⟩ := drainFinish_spec g.wf th.ne _ _ _ d1 a2 hlen
  rw [List.nil_append, List.take_append_drop] at b2
  have h12 : ∀ x, (chs s x).length ≤ 12 := by
    intro x
    by_cases hx : lnk s x = none
    · have : chs s x = [] := chs_none hx
      rw [this]; simp
    · have := (th x hx).1; omega
  obtain ⟨v, v1, v2, -⟩ := drop_prune c g.wf th.ne h12 rs re b2.inn b2.root b2.rc b2.lf b2.items
  obtain ⟨s', lvl', h', w1, w2, w3, w4, w5, -⟩ := dropTail_spec hm1 hm5 hh c g sz v2
  have hord : order s' = X ++ Z := by
    rw [w5.order, pruned_order g.wf v2, c.ord, List.filter_append, List.filter_append]
    rw [List.nodup_append, List.nodup_append] at nd
    have e1 : X.filter (fun l => decide (l ∉ Y)) = X := by
      rw [List.filter_eq_self]
      intro l hl
      simp only [decide_eq_true_eq]
      intro hy; exact nd.1.2.2 l hl l hy rfl
    have e2 : Y.filter (fun l => decide (l ∉ Y)) = [] := by
      rw [List.filter_eq_nil_iff]
      intro l hl
      simp [hl]
    have e3 : Z.filter (fun l => decide (l ∉ Y)) = Z := by
      rw [List.filter_eq_self]
      intro l hl
      simp only [decide_eq_true_eq]
      intro hy; exact nd.2.2 l (by simp [hy]) l hl rfl
    rw [e1, e2, e3, List.append_nil]
  refine ⟨d1, s', lvl', h', a1, drainDrop_parts b1 ((b3.trans a3).trans hst) v1 w1, w2, w3, w4, hord, ?_, ?_⟩
  · rw [entries, hord, ← entriesOf_append]
    apply entriesOf_congr
    intro l hl
    rw [w5.elm, pruned_elm v2, if_neg]
    intro hy
    rw [List.nodup_append, List.nodup_append] at nd
    rcases List.mem_append.mp hl with hl | hl
    · exact nd.1.2.2 l hl l hy rfl
    · exact nd.2.2 l (by simp [hy]) l hl rfl
  · rw [w5.lfitems, v2.lfitems]

/-- `drain`, depending on the height `h2` of the tree after the cuts -/
theorem drain_core {m : Fill} (hm1 : 1 ≤ m.lo) (hm5 : m.lo + m.d ≤ 5) (g : Good A s lvl h) (sz : Sz m s h) (hsl : SplitLen B A.okE)
    {a b : Cursor} {ea eb : E} {Ua Va Ub Vb : List Nat}
    (ha : order s = Ua ++ a.leaf :: Va) (hea : elm s a.leaf = some ea) (hoa : a.offset ≤ B.rleLen ea)
    (hb : order s = Ub ++ b.leaf :: Vb) (heb : elm s b.leaf = some eb) (hob : b.offset ≤ B.rleLen eb)
    (hle : NotBehind B Ua Ub Vb a b eb) (hz : EndPos B s Vb b eb)
    (hend : a.offset = 0 ∨ a.offset < B.rleLen ea ∨ Va ≠ []) (fa fb : Bool) (k : Nat)
    : ∃ h2, Steps (CutsRaise B s a b) h h2 ∧ (10 ≤ h2 → drain B s ⟨a, fa⟩ ⟨b, fb⟩ k = .error .panic) ∧ (h2 ≤ 9 →
    ∃ Y s' lvl' h', drain B s ⟨a, fa⟩ ⟨b, fb⟩ k = .ok ((Y.take k).map Prod.snd, (Y.drop k).map Prod.snd, s') ∧
      Good A s' lvl' h' ∧ Sz m.drained s' h' ∧ h' ≤ h + 1 ∧ ∃ L R X n, specCut B (abs s) b = .ok (L, R, n) ∧
        specCut B ⟨n, L ++ R⟩ a = .ok (X, Y ++ R, s'.lf.items.length) ∧ entries s' = X ++ R) := by
  obtain ⟨ei, s1, si, s2, lvl2, h2, X, Y, Z, c1, c2, g2, sz2, hst, ho, n1, n2, p2, p3, L, n, k1, k2, -⟩ :=
    drain_cuts hm1 hm5 g sz hsl ha hea hoa hb heb hob hle
  have hne := p3 hend
  obtain ⟨y, hy⟩ : ∃ y, (Y ++ Z).head? = some y := Option.ne_none_iff_exists'.mp (by simpa using hne)
  have th := Thin.of_sz hm1 sz2
  rw [hy] at n2
  have hh2 := hst.le
  refine ⟨h2, hst, fun hc => ?_, fun h9 => ?_⟩
  · have hp := getPath_full g2.wf hc (l := y) ((mem_order g2.wf).mp (by
      rw [ho, List.append_assoc]; exact List.mem_append_right _ (List.mem_of_head? hy)))
    simp only [drain, drainNew, c1, bind_ok, c2, n2, Option.map_some, hp]
    rfl
  obtain ⟨sp, ep, e, d1, d2, d3, d4, d5⟩ := drainNew_paths g2.wf th.ne h9 ho hy (p2 hz)
  obtain ⟨d', s', lvl', h', r1, r2, r3, r4, r5, r6, r7, r8⟩ := drain_run (B := B) (k := k) hm1 hm5 g2 sz2 h9 d1 d2 d3 d4 rfl
  refine ⟨entriesOf s2 Y, s', lvl', h', ?_, r3, r4, by omega, L, entriesOf s2 Z, entriesOf s2 X, n, k1, ?_, r7⟩
  · have hN : drainNew B s (some ⟨a, fa⟩) (some ⟨b, fb⟩) = .ok ⟨s2, sp, false, Z.head?.map (fun l => ⟨l, 0⟩), some ⟨sp, ep, X.getLast?.map .leaf, Z.head?.map .leaf⟩⟩ := by
      simp only [drainNew, c1, bind_ok, c2, n2, Option.map_some, n1]
      exact d5
    rw [drain, hN, bind_ok, r1, bind_ok]
    simp only [r2, bind_ok, pure_ok]
  · rw [r8]; exact k2

/-- `drain`: right on trees of at most 8 levels, and on all others unless it panics -/
theorem drain_spec_at {m : Fill} (hm1 : 1 ≤ m.lo) (hm5 : m.lo + m.d ≤ 5) (g : Good A s lvl h) (sz : Sz m s h) (hsl : SplitLen B A.okE)
    {a b : Cursor} {ea eb : E} {Ua Va Ub Vb : List Nat}
    (ha : order s = Ua ++ a.leaf :: Va) (hea : elm s a.leaf = some ea) (hoa : a.offset ≤ B.rleLen ea)
    (hb : order s = Ub ++ b.leaf :: Vb) (heb : elm s b.leaf = some eb) (hob : b.offset ≤ B.rleLen eb)
    (hle : NotBehind B Ua Ub Vb a b eb) (hz : EndPos B s Vb b eb)
    (hend : a.offset = 0 ∨ a.offset < B.rleLen ea ∨ Va ≠ []) (fa fb : Bool) (k : Nat)
    (hh : h ≤ 8 ∨ drain B s ⟨a, fa⟩ ⟨b, fb⟩ k ≠ .error .panic) :
    ∃ Y s' lvl' h', drain B s ⟨a, fa⟩ ⟨b, fb⟩ k = .ok ((Y.take k).map Prod.snd, (Y.drop k).map Prod.snd, s') ∧
      Good A s' lvl' h' ∧ Sz m.drained s' h' ∧ h' ≤ h + 1 ∧ ∃ L R X n, specCut B (abs s) b = .ok (L, R, n) ∧
        specCut B ⟨n, L ++ R⟩ a = .ok (X, Y ++ R, s'.lf.items.length) ∧ entries s' = X ++ R := by
  obtain ⟨h2, h3, h5, h6⟩ := drain_core hm1 hm5 g sz hsl ha hea hoa hb heb hob hle hz hend fa fb k
  have h3 := h3.le
  refine h6 ?_
  rcases hh with hh | hh
  · omega
  · exact Nat.le_of_not_lt fun hc => hh (h5 hc)

/-- when `drain` panics -/
theorem drain_panics_at {m : Fill} (hm1 : 1 ≤ m.lo) (hm5 : m.lo + m.d ≤ 5) (g : Good A s lvl h) (sz : Sz m s h) (hsl : SplitLen B A.okE)
    {a b : Cursor} {ea eb : E} {Ua Va Ub Vb : List Nat}
    (ha : order s = Ua ++ a.leaf :: Va) (hea : elm s a.leaf = some ea) (hoa : a.offset ≤ B.rleLen ea)
    (hb : order s = Ub ++ b.leaf :: Vb) (heb : elm s b.leaf = some eb) (hob : b.offset ≤ B.rleLen eb)
    (hle : NotBehind B Ua Ub Vb a b eb) (hz : EndPos B s Vb b eb)
    (hend : a.offset = 0 ∨ a.offset < B.rleLen ea ∨ Va ≠ []) (fa fb : Bool) (k : Nat) :
    drain B s ⟨a, fa⟩ ⟨b, fb⟩ k = .error .panic ↔ 10 ≤ h ∨ h = 9 ∧ CutsRaise B s a b := by
  obtain ⟨h2, h3, h5, h6⟩ := drain_core hm1 hm5 g sz hsl ha hea hoa hb heb hob hle hz hend fa fb k
  have h10 : drain B s ⟨a, fa⟩ ⟨b, fb⟩ k = .error .panic ↔ 10 ≤ h2 := by
    refine ⟨fun hp => Nat.lt_of_not_le fun hc => ?_, h5⟩
    obtain ⟨Y, s', _, _, d1, -⟩ := h6 hc
    rw [hp] at d1
    cases d1
  rw [h10]
  rcases h3 with ⟨e1, e2⟩ | ⟨e1, e2⟩
  · refine ⟨fun h => .inl (by omega), ?_⟩
    rintro (h | ⟨-, h⟩)
    · omega
    · exact absurd h e2
  · refine ⟨fun h => ?_, ?_⟩
    · rcases Nat.lt_or_ge h2 11 with h | h
      · exact .inr ⟨by omega, e2⟩
      · exact .inl (by omega)
    · rintro (h | ⟨h, -⟩) <;> omega

/-- `drain`: right on trees of at most 8 levels, and on all others unless it panics -/
theorem drain_spec {m : Fill} (hm1 : 1 ≤ m.lo) (hm5 : m.lo + m.d ≤ 5) (g : Good A s lvl h) (sz : Sz m s h) (hsl : SplitLen B A.okE)
    (hpos : ∀ l x, elm s l = some x → 0 < B.rleLen x) {a b : Cursor} {ea eb : E} {Ua Va Ub Vb : List Nat}
    (ha : order s = Ua ++ a.leaf :: Va) (hea : elm s a.leaf = some ea) (hoa : a.offset ≤ B.rleLen ea)
    (hb : order s = Ub ++ b.leaf :: Vb) (heb : elm s b.leaf = some eb) (hob : b.offset ≤ B.rleLen eb)
    (hle : unitLen B (entriesOf s Ua) + a.offset ≤ unitLen B (entriesOf s Ub) + b.offset)
    (hend : unitLen B (entriesOf s Ua) + a.offset < unitLen B (entries s)) (fa fb : Bool) (k : Nat)
    (hh : h ≤ 8 ∨ drain B s ⟨a, fa⟩ ⟨b, fb⟩ k ≠ .error .panic) :
    ∃ Y s' lvl' h', drain B s ⟨a, fa⟩ ⟨b, fb⟩ k = .ok ((Y.take k).map Prod.snd, (Y.drop k).map Prod.snd, s') ∧
      Good A s' lvl' h' ∧ Sz m.drained s' h' ∧ h' ≤ h + 1 ∧ ∃ L R X n, specCut B (abs s) b = .ok (L, R, n) ∧
        specCut B ⟨n, L ++ R⟩ a = .ok (X, Y ++ R, s'.lf.items.length) ∧ entries s' = X ++ R :=
  drain_spec_at hm1 hm5 g sz hsl ha hea hoa hb heb hob (notBehind_of_pos g.wf hpos ha hb heb hob hle) (endPos_of_pos hpos heb) (start_before_end ha hea hend) fa fb k hh

/-- when `drain` panics -/
theorem drain_panics {m : Fill} (hm1 : 1 ≤ m.lo) (hm5 : m.lo + m.d ≤ 5) (g : Good A s lvl h) (sz : Sz m s h) (hsl : SplitLen B A.okE)
    (hpos : ∀ l x, elm s l = some x → 0 < B.rleLen x) {a b : Cursor} {ea eb : E} {Ua Va Ub Vb : List Nat}
    (ha : order s = Ua ++ a.leaf :: Va) (hea : elm s a.leaf = some ea) (hoa : a.offset ≤ B.rleLen ea)
    (hb : order s = Ub ++ b.leaf :: Vb) (heb : elm s b.leaf = some eb) (hob : b.offset ≤ B.rleLen eb)
    (hle : unitLen B (entriesOf s Ua) + a.offset ≤ unitLen B (entriesOf s Ub) + b.offset)
    (hend : unitLen B (entriesOf s Ua) + a.offset < unitLen B (entries s)) (fa fb : Bool) (k : Nat) :
    drain B s ⟨a, fa⟩ ⟨b, fb⟩ k = .error .panic ↔ 10 ≤ h ∨ h = 9 ∧ CutsRaise B s a b :=
  drain_panics_at hm1 hm5 g sz hsl ha hea hoa hb heb hob (notBehind_of_pos g.wf hpos ha hb heb hob hle) (endPos_of_pos hpos heb) (start_before_end ha hea hend) fa fb k

end

end GB

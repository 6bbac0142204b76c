import Verif.Proof.UpdateRange
import Verif.Proof.DrainAll
import Verif.Proof.DrainNone
import Verif.Proof.CheckSound
import Verif.Proof.Read

/-!
# Ranges whose end lies before their start

`Drain::new` and `update` cut at the end and then at the start.  If the end lies before the start, the leaf they want to stop at is
never met again and they run to the end of the tree.
-/

namespace GB
variable {E C D σ : Type} {B : Trait E C D} {A : Law B} {R : C → D → C → Prop}
open Tree

section
variable {s : Tree E C} {lvl : Nat → Nat} {h : Nat}

/-- Both cuts of an inverted range: `X` before the start, `Y` from there on; the leaf `lb` at which to stop is in `X`. -/
theorem inv_cuts {m : Fill} (hm1 : 1 ≤ m.lo) (hm5 : m.lo + m.d ≤ 5) (g : Good A s lvl h) (sz : Sz m s h)
    {a b : Cursor} {ea eb : E} {Ua Va Ub Vb : List Nat}
    (ha : order s = Ua ++ a.leaf :: Va) (hea : elm s a.leaf = some ea) (hoa : a.offset ≤ B.rleLen ea)
    (hb : order s = Ub ++ b.leaf :: Vb) (heb : elm s b.leaf = some eb) (hob : b.offset ≤ B.rleLen eb)
    (hlt : unitLen B (entriesOf s Ub) + b.offset < unitLen B (entriesOf s Ua) + a.offset) (hab : a.leaf ≠ b.leaf ∨ b.offset = 0) :
    ∃ ei s1 si s2 lvl2 h2 X Y lb, splitLeafIfNeeded B s b = .ok (ei, s1) ∧ splitLeafIfNeeded B s1 a = .ok (si, s2) ∧ Good A s2 lvl2 h2 ∧
      Sz m s2 h2 ∧ Steps (CutsRaise B s a b) h h2 ∧ order s2 = X ++ Y ∧ ei.newPos = some ⟨lb, 0⟩ ∧ lb ∈ X ∧
      si.newPos = Y.head?.map (fun l => ⟨l, 0⟩) ∧
      ∃ L R n, specCut B (abs s) b = .ok (L, R, n) ∧
        specCut B ⟨n, L ++ R⟩ a = .ok (entriesOf s2 X, entriesOf s2 Y, s2.lf.items.length) ∧
        s.lf.items.length ≤ s2.lf.items.length ∧
        ei.newLeaf.toList ++ si.newLeaf.toList = List.range' s.lf.items.length (s2.lf.items.length - s.lf.items.length) := by
  have hm6 : m.lo + m.d ≤ 6 := by omega
  obtain ⟨ei, s1, lvl1, h1, q1, g1, sz1, hh1, hh1', rel1⟩ := splitLeafIfNeeded_spec hm1 hm6 g sz heb hob (Or.inl hm5)
  obtain ⟨U, V, L, R, o1, o2, n1, c1, cs1⟩ := cutRel_lists g.wf rel1 heb hob
  have nd := order_nodup g.wf
  obtain ⟨rfl, rfl⟩ : U = Ub ∧ V = Vb := by
    have := hb
    rw [o1] at this nd
    exact nodup_append_cons_inj this nd
  -- where the start is
  have place : ∃ R', R = R' ++ a.leaf :: Va ∧ elm s1 a.leaf = some ea ∧ (R' = [] → a.offset ≠ 0) := by
    by_cases hl : a.leaf = b.leaf
    · have h0 : b.offset = 0 := hab.resolve_left (fun h => h hl)
      have hUV : Ua = U ∧ Va = V := by
        rw [hl] at ha
        have nd' := nd
        rw [ha] at o1 nd'
        exact nodup_append_cons_inj o1 nd'
      obtain ⟨rfl, rfl⟩ := hUV
      rcases cs1 with ⟨-, rfl, rfl, rfl⟩ | ⟨h1, -⟩ | ⟨h1, -⟩
      · exact ⟨[], by rw [hl]; rfl, hea, fun _ => by omega⟩
      · exact absurd h0 h1
      · omega
    · -- the end is in an earlier leaf
      obtain ⟨M, hM⟩ : ∃ M, Ua = U ++ b.leaf :: M := by
        have hmem : a.leaf ∈ U ++ b.leaf :: V := by rw [← o1, ha]; simp
        rw [List.mem_append, List.mem_cons] at hmem
        rcases hmem with hm | hm | hm
        · exfalso
          obtain ⟨u, v, rfl⟩ := List.append_of_mem hm
          have ho := o1
          rw [List.append_assoc, List.cons_append] at ho
          have nd' := nd
          rw [ha] at ho nd'
          obtain ⟨rfl, -⟩ := nodup_append_cons_inj ho nd'
          rw [entriesOf_append, unitLen_append, entriesOf_cons hea, unitLen_cons] at hlt
          simp only at hlt
          omega
        · exact absurd hm hl
        · obtain ⟨u, v, rfl⟩ := List.append_of_mem hm
          have ho := o1
          rw [show U ++ b.leaf :: (u ++ a.leaf :: v) = (U ++ b.leaf :: u) ++ a.leaf :: v by simp] at ho
          have nd' := nd
          rw [ha] at ho nd'
          exact ⟨u, (nodup_append_cons_inj ho nd').1⟩
      subst hM
      have hV : V = M ++ a.leaf :: Va := by
        have ho := o1
        rw [ha, List.append_assoc] at ho
        have := List.append_cancel_left ho
        simpa using this.symm
      subst hV
      rcases cs1 with ⟨-, rfl, rfl, rfl⟩ | ⟨h0, h2, rfl, rfl, rfl⟩ | ⟨h0, h2, rfl, rfl, x, y, hs, hk⟩
      · exact ⟨b.leaf :: M, rfl, hea, fun h => by cases h⟩
      · refine ⟨M, rfl, hea, ?_⟩
        rintro rfl h0'
        rw [entriesOf_append, unitLen_append, entriesOf_cons heb, unitLen_cons] at hlt
        simp [entriesOf_nil, unitLen] at hlt
        omega
      · refine ⟨s.lf.items.length :: M, rfl, ?_, fun h => by cases h⟩
        have hfr := fresh_order g.wf
        have hane : a.leaf ≠ s.lf.items.length := by intro hc; apply hfr; rw [← hc, ha]; simp
        rw [hk, if_neg hane, if_neg hl, hea]
  obtain ⟨R', rfl, hea', hR'⟩ := place
  obtain ⟨si, s2, lvl2, h2, q2, g2, sz2, hh2, hh2', rel2⟩ := splitLeafIfNeeded_spec hm1 hm6 g1 sz1 hea' hoa (Or.inl hm5)
  have hst : Steps (CutsRaise B s a b) h h2 := by
    have hle2 := hh1'.le2 hh2'
    rcases hh1' with ⟨e1, e2⟩ | ⟨e1, e2, -⟩
    · rcases hh2' with ⟨e3, e4⟩ | ⟨e3, e4, -⟩
      · refine .inl ⟨by omega, ?_⟩
        rintro (hc | ⟨ei', s1', hs, hc⟩)
        · exact e2 hc
        · rw [q1] at hs
          cases hs
          exact e4 hc
      · exact .inr ⟨by omega, .inr ⟨_, _, q1, e4⟩⟩
    · exact .inr ⟨by omega, .inl e2⟩
  obtain ⟨U2, V2, L2, R2, o3, o4, n2, c2, cs2⟩ := cutRel_lists g1.wf rel2 hea' hoa
  obtain ⟨rfl, rfl⟩ : U2 = L ++ R' ∧ V2 = Va := by
    have nd1 := order_nodup g1.wf
    rw [← List.append_assoc] at o2
    rw [o2] at o3 nd1
    obtain ⟨e1, e2⟩ := nodup_append_cons_inj o3 nd1
    exact ⟨e1.symm, e2.symm⟩
  obtain ⟨k1, k2⟩ := rel1.newLeaf
  obtain ⟨k3, k4⟩ := rel2.newLeaf
  have hlb : ∃ lb, (R' ++ a.leaf :: V2).head? = some lb ∧ lb ∈ L2 := by
    cases hc : R' with
    | cons r R' =>
      subst hc
      refine ⟨r, rfl, ?_⟩
      rcases cs2 with ⟨-, rfl, -⟩ | ⟨-, -, rfl, -⟩ | ⟨-, -, rfl, -⟩ <;> simp
    | nil =>
      have h0 := hR' hc
      refine ⟨a.leaf, rfl, ?_⟩
      rcases cs2 with ⟨h1, -⟩ | ⟨-, -, rfl, -⟩ | ⟨-, -, rfl, -⟩
      · exact absurd h1 h0
      · simp
      · simp
  obtain ⟨lb, hlb1, hlb2⟩ := hlb
  refine ⟨ei, s1, si, s2, lvl2, h2, L2, R2, lb, q1, q2, g2, sz2, hst, o4, by rw [n1, hlb1]; rfl, hlb2, n2,
    _, _, _, c1, ?_, by omega, ?_⟩
  · have : abs s1 = ⟨s1.lf.items.length, entriesOf s1 L ++ entriesOf s1 (R' ++ a.leaf :: V2)⟩ := by
      rw [← entriesOf_append, ← o2]
      rfl
    rw [← this]
    exact c2
  · rw [k2, k4, show s2.lf.items.length - s.lf.items.length = (s1.lf.items.length - s.lf.items.length) + (s2.lf.items.length - s1.lf.items.length) by omega,
      ← List.range'_append_1]
    rw [show s.lf.items.length + (s1.lf.items.length - s.lf.items.length) = s1.lf.items.length by omega]

/-- a cut behind the end of an element panics -/
theorem cut_outside (w : WF s lvl h) (ne : NE s) {pos : Cursor} {e : E} (hel : elm s pos.leaf = some e) (ho : B.rleLen e < pos.offset) :
    splitLeafIfNeeded B s pos = .error .panic := by
  obtain ⟨q, hq⟩ := Option.ne_none_iff_exists'.mp (elm_live hel)
  obtain ⟨e', hL, he'⟩ := getLf_of hq
  rw [hel] at he'
  cases he'
  obtain ⟨i, hed⟩ := w.lpar_edge hq
  obtain ⟨N, hN⟩ := lnk_isSome.mp (edge_live hed)
  rw [splitLeafIfNeeded, splitLeafF_head w ne hL hed hN, if_neg (by omega), if_neg (by omega)]
  simp only [assertM, show ¬ pos.offset < B.rleLen e by omega, decide_false]
  rfl

/-- an inverted range inside one element: the second cut panics -/
theorem inv_same {m : Fill} (hm1 : 1 ≤ m.lo) (hm5 : m.lo + m.d ≤ 5) (g : Good A s lvl h) (sz : Sz m s h) (hsl : SplitLen B A.okE)
    {a b : Cursor} {e : E} (hab : a.leaf = b.leaf) (he : elm s a.leaf = some e) (hlt : b.offset < a.offset) (hoa : a.offset ≤ B.rleLen e) (hb0 : 0 < b.offset) :
    ∃ ei s1, splitLeafIfNeeded B s b = .ok (ei, s1) ∧ splitLeafIfNeeded B s1 a = .error .panic := by
  rw [hab] at he
  obtain ⟨ei, s1, lvl1, h1, q1, g1, sz1, -, -, rel1⟩ := splitLeafIfNeeded_spec hm1 (by omega) g sz he (by omega) (Or.inl hm5)
  obtain ⟨U, V, L, R, o1, o2, n1, c1, cs1⟩ := cutRel_lists g.wf rel1 he (by omega)
  refine ⟨ei, s1, q1, ?_⟩
  rcases cs1 with ⟨h0, -⟩ | ⟨-, h0, -⟩ | ⟨h0, h2, -, -, x, y, hs, hk⟩
  · omega
  · omega
  · have hne : b.leaf ≠ s.lf.items.length := by
      intro hc
      apply fresh_order g.wf
      rw [← hc, o1]
      simp
    have := hk a.leaf
    rw [hab, if_neg hne, if_pos rfl] at this
    refine cut_outside g1.wf (Sz.ne sz1 hm1) (e := x) (by rw [hab]; exact this) ?_
    have := (hsl e b.offset x y (g.okE _ _ he) h0 h2 hs).1
    omega

/-- `update` of an inverted range: it runs to the end of the tree -/
theorem inv_update {m : Fill} (hm1 : 1 ≤ m.lo) (hm5 : m.lo + m.d ≤ 5) (hm : 2 ≤ m.lo ∨ LawE A) (L : DiffLaw A R) {ho : HashOrd E} (hho : ∀ l, (ho.idx l).Perm l)
    {f : σ → E → M (σ × E × Option D)} (hf : ClosureOK A R f) (st : σ) (g : Good A s lvl h) (sz : Sz m s h)
    {a b : Cursor} {ea eb : E} {Ua Va Ub Vb : List Nat}
    (ha : order s = Ua ++ a.leaf :: Va) (hea : elm s a.leaf = some ea) (hoa : a.offset ≤ B.rleLen ea)
    (hb : order s = Ub ++ b.leaf :: Vb) (heb : elm s b.leaf = some eb) (hob : b.offset ≤ B.rleLen eb)
    (hlt : unitLen B (entriesOf s Ub) + b.offset < unitLen B (entriesOf s Ua) + a.offset) (hab : a.leaf ≠ b.leaf ∨ b.offset = 0)
    (hh : h ≤ 8 ∨ update B ho f st s a b ≠ .error .panic) :
    ∃ st' s' lvl' h', update B ho f st s a b = .ok (st', List.range' (abs s).next ((abs s').next - (abs s).next), s') ∧
      (abs s).next ≤ (abs s').next ∧ Good A s' lvl' h' ∧ Sz m s' h' ∧ h' ≤ h + 1 ∧
      ∃ L R X n Y Y', specCut B (abs s) b = .ok (L, R, n) ∧ specCut B ⟨n, L ++ R⟩ a = .ok (X, Y, s'.lf.items.length) ∧
        runOn f st Y = .ok (st', Y') ∧ entries s' = X ++ Y'.filter (fun x => !B.canRemove x.2) := by
  obtain ⟨ei, s1, si, s2, lvl2, h2, X, Y, lb, c1, c2, g2, sz2, hst, hord, n1, hlb, n2, L', R', n, k1, k2, len2, hnew⟩ :=
    inv_cuts hm1 hm5 g sz ha hea hoa hb heb hob hlt hab
  have hh2 := hst.le.2
  simp only [update, c1, bind_ok, c2] at hh ⊢
  cases hY : Y with
  | nil =>
    subst hY
    rw [List.head?_nil, Option.map_none] at n2
    rw [n2]
    refine ⟨st, s2, lvl2, h2, by rw [hnew]; rfl, len2, g2, sz2, by omega, L', R', _, n, _, [], k1, k2, rfl, ?_⟩
    rw [entries, hord]
    simp
  | cons l t =>
    rw [hY, List.head?_cons, Option.map_some] at n2
    rw [n2] at hh ⊢
    have hlm : l ∈ order s2 := by rw [hord, hY]; simp
    have h9 : h2 ≤ 9 := by
      rcases hh with hh | hh
      · omega
      · refine Nat.le_of_not_lt fun hc => hh ?_
        simp only [getPath_full g2.wf hc ((mem_order g2.wf).mp hlm)]
        rfl
    have nd := order_nodup g2.wf
    rw [hord, List.nodup_append] at nd
    obtain ⟨st3, s5, lvl5, h5, Y', r1, g5, sz5, hh5, r2, en5, hlen⟩ := update_tail hm1 hm5 hm L hho hf st g2 sz2 h9 (X := X) (Y := Y) (Z := []) (l := l)
      (by simpa using hord) (by rw [hY]; rfl) (stop := some lb) (fun y hy hc => nd.2.2 y (by cases hc; exact hlb) y hy rfl) (fun h => absurd rfl h)
      (List.range' (abs s).next ((abs s2).next - (abs s).next))
    refine ⟨st3, s5, lvl5, h5, ?_, by rw [abs, abs, hlen]; exact len2, g5, sz5, by omega,
      L', R', _, n, _, Y', k1, by rw [hlen, k2], r2, by rw [en5, entriesOf_nil, List.append_nil]⟩
    rw [show (abs s5).next = (abs s2).next from hlen]
    simp only [n1, Option.map_some, hnew]
    exact r1

/-! ## `drop` of an inverted drain -/

theorem setSlots_chs : ∀ {cs : List (Child C)} {u u' : Tree E C} {i : Nat}, setSlots u cs i = .ok u' → ∀ x, chs u' x = chs u x := by
  intro cs
  induction cs with
  | nil => intro u u' i hu x; cases hu; rfl
  | cons c cs ih =>
    intro u u' i hu x
    obtain ⟨y, -, hu⟩ := bind_inv hu
    obtain ⟨N, h2, hu⟩ := bind_inv hu
    have hN := getIn_inv h2
    rw [ih hu x, chs_setIn _ (lnk_isSome.mpr ⟨N, hN⟩)]
    by_cases hx : x = y
    · rw [if_pos hx, hx, chs_of hN]
    · rw [if_neg hx]

theorem updSlotsFrom_chs {u u' : Tree E C} {p i : Nat} (hu : updSlotsFrom u p i = .ok u') (x : Nat) : chs u' x = chs u x := by
  obtain ⟨N, -, hu⟩ := bind_inv hu
  split at hu
  · cases hu; rfl
  · exact setSlots_chs hu x

theorem unwrapInternal_inv {a : Idx} {x : Nat} (ha : a.unwrapInternal = .ok x) : a = .internal x := by
  cases a with
  | internal y => cases ha; rfl
  | leaf l => cases ha

theorem delRange_inv {α : Type} {l r : List α} {a b : Nat} (hd : delRange l a b = .ok r) (hb : b ≤ l.length) : r = l.take a ++ l.drop b := by
  unfold delRange at hd
  split at hd
  · next hc => cases hd; rw [hc, List.take_append_drop]
  · split at hd
    · cases hd; rfl
    · cases hd

/-- the first loop of `drop` does not succeed when the end path is left of the start path -/
theorem dropLoop1_inverted {sp ep : List PIdx} {H : Nat}
    (hlt : ∀ (l : Nat) (a b pa pb : PIdx), sp[l + 1]? = some a → ep[l + 1]? = some b → sp[l]? = some pa → ep[l]? = some pb → a.arena ≠ b.arena →
      pa.arena = pb.arena → b.arr < a.arr)
    (hdis : ∀ (k l : Nat) (a b c : PIdx), k < l → l < H → ep[k]? = some a → sp[l]? = some b → ep[l]? = some c → b.arena ≠ a.arena ∧ c.arena ≠ a.arena) :
    ∀ (level : Nat) (u : Tree E C) (del : List Idx), level ≤ H →
      (∀ a b, sp[level]? = some a → ep[level]? = some b → a.arena ≠ b.arena) →
      (∀ b x, ep[level]? = some b → b.arena = .internal x → chs u x ≠ []) →
      (∀ l < level, ∀ b pb x, ep[l + 1]? = some b → ep[l]? = some pb → pb.arena = .internal x → b.arr < (chs u x).length) →
      ∀ r, dropLoop1 sp ep level u del ≠ .ok r := by
  intro level
  induction level with
  | zero =>
    intro u del _ hne _ _ r hr
    unfold dropLoop1 at hr
    obtain ⟨a, k1, hr⟩ := bind_inv hr
    obtain ⟨b, k2, hr⟩ := bind_inv hr
    rw [if_neg (hne a b (vget_inv k1) (vget_inv k2))] at hr
    cases hr
  | succ l ih =>
    intro u del hH hne hcur hlow r hr
    unfold dropLoop1 at hr
    obtain ⟨a, k1, hr⟩ := bind_inv hr
    obtain ⟨b, k2, hr⟩ := bind_inv hr
    replace k1 := vget_inv k1
    replace k2 := vget_inv k2
    have hab := hne a b k1 k2
    rw [if_neg hab] at hr
    obtain ⟨an, k3, hr⟩ := bind_inv hr
    obtain ⟨bn, k4, hr⟩ := bind_inv hr
    obtain ⟨bx, k4a, k4b⟩ := bind_inv k4
    have hbx := unwrapInternal_inv k4a
    have hbe : bn.isEmpty = false := by
      have := hcur b bx k2 hbx
      rw [chs_of (getIn_inv k4b)] at this
      cases hc : bn.children with
      | nil => exact absurd hc this
      | cons => simp [Node.isEmpty, hc]
    obtain ⟨pa, k5, hr⟩ := bind_inv hr
    obtain ⟨pb, k6, hr⟩ := bind_inv hr
    replace k5 := vget_inv k5
    replace k6 := vget_inv k6
    obtain ⟨pai, k7, hr⟩ := bind_inv hr
    obtain ⟨pbi, k8, hr⟩ := bind_inv hr
    replace k7 := unwrapInternal_inv k7
    replace k8 := unwrapInternal_inv k8
    simp only [hbe, Bool.false_eq_true, if_false] at hr
    split at hr
    · next hp =>
      have hlt' := hlt l a b pa pb k1 k2 k5 k6 hab hp
      obtain ⟨par, -, hr⟩ := bind_inv hr
      obtain ⟨_, k9, hr⟩ := bind_inv hr
      have := (of_decide_eq_true (assertM_inv k9)).1
      split at this <;> omega
    · next hp =>
      obtain ⟨par, k9, hr⟩ := bind_inv hr
      obtain ⟨_, k10, hr⟩ := bind_inv hr
      obtain ⟨cs, k11, hr⟩ := bind_inv hr
      obtain ⟨parE, k12, hr⟩ := bind_inv hr
      obtain ⟨_, k13, hr⟩ := bind_inv hr
      obtain ⟨csE, k14, hr⟩ := bind_inv hr
      obtain ⟨u2, k15, hr⟩ := bind_inv hr
      have hpai := getIn_inv k9
      have hE := getIn_inv k12
      have hne' : pai ≠ pbi := by
        intro hc
        apply hp
        rw [k7, k8, hc]
      have hcE : parE.children = chs u pbi := by
        rw [← chs_of hE, chs_setIn _ (lnk_isSome.mpr ⟨par, hpai⟩), if_neg (Ne.symm hne')]
      have hch : ∀ x, chs u2 x = if x = pbi then csE else if x = pai then cs else chs u x := by
        intro x
        rw [updSlotsFrom_chs k15, chs_setIn _ (lnk_isSome.mpr ⟨parE, hE⟩), chs_setIn _ (lnk_isSome.mpr ⟨par, hpai⟩)]
      have hcs := delRange_inv k14 (of_decide_eq_true (assertM_inv k13))
      have hblen := hlow l (by omega) b pb pbi k2 k6 k8
      refine ih u2 _ (by omega) ?_ ?_ ?_ r hr
      · intro a' b' ha' hb'
        rw [k5] at ha'
        rw [k6] at hb'
        cases ha'
        cases hb'
        exact hp
      · intro b' x hb' hx
        rw [k6] at hb'
        cases hb'
        rw [k8] at hx
        cases hx
        rw [hch, if_pos rfl, hcs, List.take_zero, List.nil_append]
        intro hc
        rw [List.drop_eq_nil_iff, hcE] at hc
        omega
      · intro k hk b' pb' x hb' hpb' hx
        obtain ⟨d1, d2⟩ := hdis k l pb' pa pb hk (by omega) hpb' k5 k6
        rw [hch, if_neg, if_neg]
        · exact hlow k (by omega) b' pb' x hb' hpb' hx
        · rintro rfl; exact d1 (by rw [k7, hx])
        · rintro rfl; exact d2 (by rw [k8, hx])

/-- two paths in one tree, the second to an earlier leaf in another bottom node -/
theorem paths_inverted (w : WF s lvl h) {y e : Nat} {U V : List Nat} (ho : order s = U ++ y :: V) (he : e ∈ U) {sp ep : List PIdx} (rs : RPath s y h sp)
    (re : RPath s e h ep) : (∀ (l : Nat) (a b pa pb : PIdx), sp[l + 1]? = some a → ep[l + 1]? = some b → sp[l]? = some pa → ep[l]? = some pb → a.arena ≠ b.arena →
      pa.arena = pb.arena → b.arr < a.arr) ∧
    (∀ (k l : Nat) (a b c : PIdx), k < l → l < h → ep[k]? = some a → sp[l]? = some b → ep[l]? = some c → b.arena ≠ a.arena ∧ c.arena ≠ a.arena) ∧
    (∀ l < h, ∀ b pb x, ep[l + 1]? = some b → ep[l]? = some pb → pb.arena = .internal x → b.arr < (chs s x).length) := by
  refine ⟨?_, ?_, ?_⟩
  · intro l a b pa pb h1 h2 h3 h4 hab hp
    have hl : l < h := by
      have := (List.getElem?_eq_some_iff.mp h1).1
      rw [rs.len] at this
      omega
    obtain ⟨p, j, a', i, e1, e2, e3⟩ := rs.step l hl
    obtain ⟨p', j', b', i', f1, f2, f3⟩ := re.step l hl
    rw [h1] at e2; cases e2
    rw [h2] at f2; cases f2
    rw [h3] at e1; cases e1
    rw [h4] at f1; cases f1
    simp only [Idx.internal.injEq] at hp
    subst hp
    have m1 := rs.mem' w (by omega) h1
    have m2 := re.mem' w (by omega) h2
    rcases Nat.lt_trichotomy i' i with hc | hc | hc
    · exact hc
    · subst hc
      rw [Edge] at e3 f3
      rw [e3] at f3
      cases f3
      exact absurd rfl hab
    · exfalso
      have := right_of w e3 m1 ho f3 hc m2
      have nd := order_nodup w
      rw [ho, List.nodup_append] at nd
      exact nd.2.2 e he e (List.mem_cons_of_mem _ this) rfl
  · intro k l a b c hk hl h1 h2 h3
    obtain ⟨p, j, q1⟩ := re.get (show k < h by omega)
    obtain ⟨p', j', q2⟩ := rs.get hl
    obtain ⟨p'', j'', q3⟩ := re.get hl
    rw [h1] at q1; cases q1
    rw [h2] at q2; cases q2
    rw [h3] at q3; cases q3
    have n1 := re.node w (show k < h by omega) h1
    have n2 := rs.node w hl h2
    have n3 := re.node w hl h3
    constructor
    · intro hc; cases hc; omega
    · intro hc; cases hc; omega
  · intro l hl b pb x h1 h2 hx
    obtain ⟨p, j, a, i, e1, e2, e3⟩ := re.step l hl
    rw [h1] at e2; cases e2
    rw [h2] at e1; cases e1
    cases hx
    have := (List.getElem?_eq_some_iff.mp e3).1
    rwa [kids_chs, List.length_map] at this

theorem filterDeleted_chs {u u' : Tree E C} {x : Nat} (hu : filterDeleted u (.internal x) = .ok u') (y : Nat) :
    u'.lf = u.lf ∧ (y ≠ x → chs u' y = chs u y) ∧ ∀ c ∈ chs u x, ∀ l, c.arena = .leaf l → u.lf.contains l = true → c ∈ chs u' x := by
  obtain ⟨i, k1, hu⟩ := bind_inv hu
  cases k1
  obtain ⟨N, k2, hu⟩ := bind_inv hu
  have hN := getIn_inv k2
  cases hu
  refine ⟨rfl, fun hy => by rw [chs_setIn _ (lnk_isSome.mpr ⟨N, hN⟩), if_neg hy], ?_⟩
  intro c hc l hl hlf
  rw [chs_setIn _ (lnk_isSome.mpr ⟨N, hN⟩), if_pos rfl]
  rw [chs_of hN] at hc
  simp only [List.mem_filter]
  refine ⟨hc, ?_⟩
  rw [hl]
  exact hlf

/-- `drop` does not succeed when the end is left of the start, in another bottom node -/
theorem drop_inverted (w : WF s lvl h) (ne : NE s) {y e i j : Nat} {rest rest' : List PIdx} {Y1 Y2 U V : List Nat} (ho : order s = U ++ y :: V) (he : e ∈ U)
    (hp : PathTo s (⟨.leaf y, i⟩ :: rest)) (hl : rest.length = h) (hp' : PathTo s (⟨.leaf e, j⟩ :: rest')) (hl' : rest'.length = h)
    (hb : lpar s y ≠ lpar s e) {d : Drain E C} (ds : DS s h U Y1 Y2 [] d) {be af : Option Idx}
    (hst : d.store = some ⟨⟨.leaf y, i⟩ :: rest, ⟨.leaf e, j⟩ :: rest', be, af⟩) : ∀ r, drainDrop B d ≠ .ok r := by
  intro r hr
  have hlen := order_length_le w
  rw [ds.ord] at hlen
  simp only [List.length_append, List.length_nil] at hlen
  obtain ⟨d', f1, f2, f3⟩ := drainFinish_spec w ne (leafFuel d.tree) Y1 Y2 d ds (by rw [leafFuel, ds.items]; omega)
  unfold drainDrop at hr
  simp only [f1, bind_ok, f3, hst, unwrap_some] at hr
  have rs := RPath.of hp hl
  have re := RPath.of hp' hl'
  generalize (⟨.leaf y, i⟩ :: rest : List PIdx).reverse = sp at hr rs
  generalize (⟨.leaf e, j⟩ :: rest' : List PIdx).reverse = ep at hr re
  obtain ⟨g1, g2, g3⟩ := paths_inverted w ho he rs re
  obtain ⟨_, k1, hr⟩ := bind_inv hr
  have h2 := of_decide_eq_true (assertM_inv k1)
  rw [rs.len] at h2 hr
  obtain ⟨h', rfl⟩ : ∃ h', h = h' + 1 := ⟨h - 1, by omega⟩
  rw [show h' + 1 + 1 - 2 = h' by omega] at hr
  obtain ⟨p, jp, a1, i1, s1, s2, s3⟩ := rs.step h' (by omega)
  obtain ⟨q, jq, a2, i2, t1, t2, t3⟩ := re.step h' (by omega)
  obtain ⟨_, b1⟩ := rs.bot
  obtain ⟨_, b2⟩ := re.bot
  rw [b1] at s2; cases s2
  rw [b2] at t2; cases t2
  have hpq : p ≠ q := by
    rintro rfl
    exact hb ((w.klf s3).2.trans (w.klf t3).2.symm)
  obtain ⟨a, k2, hr⟩ := bind_inv hr
  replace k2 := vget_inv k2
  rw [s1] at k2; cases k2
  obtain ⟨u1, k3, hr⟩ := bind_inv hr
  obtain ⟨b, k4, hr⟩ := bind_inv hr
  replace k4 := vget_inv k4
  rw [t1] at k4; cases k4
  obtain ⟨u2, k5, hr⟩ := bind_inv hr
  obtain ⟨r', k6, -⟩ := bind_inv hr
  have hch0 : ∀ x, chs d'.tree x = chs s x := fun x => by rw [chs, chs, f2.inn]
  have hch : ∀ x, x ≠ p → x ≠ q → chs u2 x = chs s x := by
    intro x h1 h2
    rw [(filterDeleted_chs k5 x).2.1 h2, (filterDeleted_chs k3 x).2.1 h1, hch0]
  refine dropLoop1_inverted g1 g2 h' u2 [] (by omega) ?_ ?_ ?_ r' k6
  · intro a b ha hb' hc
    rw [s1] at ha; cases ha
    rw [t1] at hb'; cases hb'
    cases hc
    exact hpq rfl
  · intro b x hb' hx
    rw [t1] at hb'; cases hb'
    cases hx
    have hm : Idx.leaf e ∈ kids s q := List.mem_of_getElem? t3
    rw [kids_chs, List.mem_map] at hm
    obtain ⟨c, hc, hce⟩ := hm
    have hc1 : c ∈ chs u1 q := by rw [(filterDeleted_chs k3 q).2.1 (Ne.symm hpq), hch0]; exact hc
    have := (filterDeleted_chs k5 q).2.2 c hc1 e hce (by
      rw [(filterDeleted_chs k3 q).1]
      have hg := f2.lf e
      have hni : e ∉ Y1 ++ Y2 := by
        have nd := order_nodup w
        rw [ds.ord, List.append_nil, List.nodup_append] at nd
        exact fun hc => nd.2.2 e he e hc rfl
      rw [if_neg hni] at hg
      obtain ⟨pe, hpe⟩ := Option.ne_none_iff_exists'.mp ((mem_order w).mp (show e ∈ order s by rw [ho]; simp [he]))
      obtain ⟨x, hL, -⟩ := getLf_of hpe
      rw [Arena.contains, hg, hL]
      rfl)
    exact List.ne_nil_of_mem this
  · intro l hl b pb x h1 h2 hx
    have hn : lnk s x ≠ none ∧ lvl x = h' + 1 - l := by
      obtain ⟨x', jx, hxx⟩ := re.get (show l < h' + 1 by omega)
      rw [h2] at hxx; cases hxx
      cases hx
      exact re.node w (by omega) h2
    have n1 := rs.node w (show h' < h' + 1 by omega) s1
    have n2 := re.node w (show h' < h' + 1 by omega) t1
    rw [hch x (by rintro rfl; omega) (by rintro rfl; omega)]
    exact g3 l (by omega) b pb x h1 h2 hx

/-- the iterator of an inverted range: it yields everything from the start to the end of the tree; then `drop` does not succeed unless the
leaf at the start and the leaf at the end (after the cuts) are in one bottom node -/
theorem inv_drain {m : Fill} (hm1 : 1 ≤ m.lo) (hm5 : m.lo + m.d ≤ 5) (g : Good A s lvl h) (sz : Sz m s h) (hh : h ≤ 8)
    {a b : Cursor} {ea eb : E} {Ua Va Ub Vb : List Nat}
    (ha : order s = Ua ++ a.leaf :: Va) (hea : elm s a.leaf = some ea) (hoa : a.offset ≤ B.rleLen ea)
    (hb : order s = Ub ++ b.leaf :: Vb) (heb : elm s b.leaf = some eb) (hob : b.offset ≤ B.rleLen eb)
    (hlt : unitLen B (entriesOf s Ub) + b.offset < unitLen B (entriesOf s Ua) + a.offset) (hab : a.leaf ≠ b.leaf ∨ b.offset = 0) (fa fb : Bool) :
    ∃ d L R n X Y n', drainNew B s (some ⟨a, fa⟩) (some ⟨b, fb⟩) = .ok d ∧
      specCut B (abs s) b = .ok (L, R, n) ∧ specCut B ⟨n, L ++ R⟩ a = .ok (X, Y, n') ∧
      ∀ k, ∃ d', drainTake k d = .ok ((Y.take k).map Prod.snd, d') ∧ ((∀ r, drainDrop B d' ≠ .ok r) ∨ ∃ y e, Y.head?.map Prod.fst = some y ∧ d.endCursor = some ⟨e, 0⟩ ∧ lpar d.tree y = lpar d.tree e) := by
  obtain ⟨ei, s1, si, s2, lvl2, h2, X, Y, lb, c1, c2, g2, sz2, hst, hord, n1, hlb, n2, L', R', n, k1, k2, len2, hnew⟩ :=
    inv_cuts hm1 hm5 g sz ha hea hoa hb heb hob hlt hab
  have h9 : h2 ≤ 9 := by have := hst.le.2; omega
  have ne := Sz.ne sz2 hm1
  rcases hY : Y with - | ⟨l, t⟩
  · subst hY
    rw [List.head?_nil, Option.map_none] at n2
    refine ⟨drainNone s2, L', R', n, _, [], _, ?_, k1, k2, fun k => ⟨drainNone s2, ?_, .inl fun r hr => by rw [drainDrop_none] at hr; cases hr⟩⟩
    · simp only [drainNew, c1, bind_ok, c2, n2, pure_ok]
    · rw [drainTake_done rfl, List.take_nil]; rfl
  · rw [hY, List.head?_cons, Option.map_some] at n2
    have hlm : l ∈ order s2 := by rw [hord, hY]; simp
    have hbm : lb ∈ order s2 := by rw [hord]; simp [hlb]
    have hll := (mem_order g2.wf).mp hlm
    have hbl := (mem_order g2.wf).mp hbm
    obtain ⟨i, rest, p1, p2, p3⟩ := getPath_leaf g2.wf h9 hll
    obtain ⟨j, rest', q1, q2, q3⟩ := getPath_leaf g2.wf h9 hbl
    obtain ⟨u, v, -, o2⟩ := prevSameLevelLeaf_spec g2.wf ne hll
    obtain ⟨u', v', -, o3⟩ := nextSameLevelLeaf_spec g2.wf ne hbl
    obtain ⟨p, hlp⟩ := Option.ne_none_iff_exists'.mp hbl
    obtain ⟨x, hL, hx⟩ := getLf_of hlp
    have hL' : s2.getLf lb = .ok ⟨x, p⟩ := by simp only [getLf, hL, unwrap_some]
    have nd := order_nodup g2.wf
    rw [hord, List.nodup_append] at nd
    have hds : ∀ (af be : Option Idx), DS s2 h2 X [] Y [] (⟨s2, ⟨.leaf l, i⟩ :: rest, false, some ⟨lb, 0⟩, some ⟨⟨.leaf l, i⟩ :: rest, ⟨.leaf lb, j⟩ :: rest', be, af⟩⟩ : Drain E C) := by
      intro af be
      refine ⟨by rw [hord]; simp, rfl, rfl, rfl, by simp, rfl, ⟨?_, fun h => absurd rfl h⟩, Or.inr ⟨l, i, rest, by rw [hY]; rfl, rfl, rfl, p2, p3⟩⟩
      intro y hy hc
      cases hc
      exact nd.2.2 lb hlb lb hy rfl
    have live : ∀ l ∈ Y, elm s2 l ≠ none := by
      intro l hl
      have : lpar s2 l ≠ none := by rw [← mem_order g2.wf, hord]; simp [hl]
      obtain ⟨p, hp⟩ := Option.ne_none_iff_exists'.mp this
      obtain ⟨x, -, hx⟩ := getLf_of hp
      rw [hx]; simp
    obtain ⟨af, haf⟩ : ∃ af, (if B.rleLen x = 0 then nextSameLevel s2 (.leaf lb) else pure (some (.leaf lb)) : M (Option Idx)) = .ok af := by
      by_cases hc : B.rleLen x = 0
      · rw [if_pos hc, nextSameLevel, o3]; exact ⟨_, rfl⟩
      · rw [if_neg hc]; exact ⟨_, rfl⟩
    refine ⟨⟨s2, ⟨.leaf l, i⟩ :: rest, false, some ⟨lb, 0⟩, some ⟨⟨.leaf l, i⟩ :: rest, ⟨.leaf lb, j⟩ :: rest', u.getLast?.map .leaf, af⟩⟩,
      L', R', n, _, entriesOf s2 Y, _, ?_, k1, k2, fun k => ?_⟩
    · simp only [drainNew, c1, bind_ok, c2, n2, n1, p1, pure_ok, q1, List.head?_cons, unwrap_some, prevSameLevel, o2, if_true, hL']
      exact (congrArg (fun r => r >>= _) haf).trans rfl
    · obtain ⟨d', t1, t2, t3⟩ := drainTake_spec g2.wf ne k [] Y _ (hds af (u.getLast?.map .leaf))
      refine ⟨d', by rw [(entriesOf_live live k).1]; exact t1, ?_⟩
      by_cases hc : lpar s2 l = lpar s2 lb
      · refine .inr ⟨l, lb, ?_, rfl, hc⟩
        obtain ⟨x, hx⟩ := Option.ne_none_iff_exists'.mp (live l (by rw [hY]; simp))
        rw [hY, entriesOf_cons hx]
        rfl
      · exact .inl (drop_inverted g2.wf ne (by rw [hord, hY]) hlb p2 p3 q2 q3 hc t2 t3)

/-- `Iter` with an end that is not ahead of it: it runs to the end of the tree -/
theorem iterNodesF_tail (w : WF s lvl h) (ne : NE s) {le ie : Nat} :
    ∀ (n l i : Nat) (rest : List PIdx) (u m : List Nat),
    PathTo s (⟨.leaf l, i⟩ :: rest) → rest.length = h → order s = u ++ m → m.head? = some l → le ∉ m → m.length ≤ n →
    ∃ R, iterNodesF n s (some ⟨.leaf le, ie⟩) (⟨.leaf l, i⟩ :: rest) = .ok R ∧
      R.map (fun r => (r.1.head?.map PIdx.arena, r.2.elem)) = (entriesOf s m).map fun x => (some (.leaf x.1), x.2) := by
  intro n
  induction n with
  | zero =>
    intro l i rest u m _ _ _ hhead _ hn
    rw [List.length_eq_zero_iff.mp (Nat.le_zero.mp hn)] at hhead
    cases hhead
  | succ n ih =>
    intro l i rest u m hp hlen hord hhead hle hn
    obtain ⟨m', rfl⟩ : ∃ m', m = l :: m' := by
      cases m with
      | nil => cases hhead
      | cons a m => cases hhead; exact ⟨m, rfl⟩
    have hlo : l ∈ order s := by rw [hord]; simp
    obtain ⟨p, hlp⟩ := Option.ne_none_iff_exists'.mp ((mem_order w).mp hlo)
    obtain ⟨e, hL, he⟩ := getLf_of hlp
    obtain ⟨u', v', hr', hcase⟩ := nextSibling_spec w ne hp rfl (by omega)
    rw [hlen] at hr'
    obtain ⟨u2, v2, o1, rfl, rfl⟩ := path_leaf_order w (i := i) (rest := rest) hr'
    have hne : (some (⟨.leaf le, ie⟩ : PIdx)) ≠ some ⟨.leaf l, i⟩ := by
      intro e
      cases e
      exact hle (by simp)
    have hd : decide ((some (⟨.leaf le, ie⟩ : PIdx)) = (⟨.leaf l, i⟩ :: rest : List PIdx).head?) = false := decide_eq_false hne
    obtain ⟨rfl, rfl⟩ := order_uniq w o1 hord
    rcases hcase with ⟨e0, e1⟩ | ⟨b, v', j', rest', e0, e1, e2, e3⟩
    · have hv : v2 = [] := List.map_eq_nil_iff.mp e0
      subst hv
      rw [iterNodesF_eq, hd]
      simp only [List.head?_cons, unwrap_some, e1, bind_ok, Idx.unwrapLeaf, getLf_ok hL]
      refine ⟨_, rfl, ?_⟩
      rw [entriesOf_cons he]
      rfl
    · obtain ⟨lb, m'', rfl, rfl⟩ : ∃ lb m'', v2 = lb :: m'' ∧ b = .leaf lb := by
        cases v2 with
        | nil => cases e0
        | cons a m'' => cases e0; exact ⟨a, m'', rfl, rfl⟩
      obtain ⟨R, i1, i2⟩ := ih lb j' rest' (u2 ++ [l]) (lb :: m'') e2 (by omega) (by rw [hord]; simp) rfl
        (fun hc => hle (List.mem_cons_of_mem _ hc)) (by simp at hn ⊢; omega)
      rw [iterNodesF_eq, hd]
      simp only [List.head?_cons, unwrap_some, e1, bind_ok, Idx.unwrapLeaf, getLf_ok hL, i1]
      refine ⟨_, rfl, ?_⟩
      rw [entriesOf_cons he]
      simp only [List.map_cons, i2]
      rfl

/-- `_iter_range` of an inverted range: it runs to the end of the tree -/
theorem inv_iterRange (w : WF s lvl h) (ne : NE s) (hh : h ≤ 9) {start stop : Cursor} {incl : Bool} {ea eb : E}
    {U V : List (Nat × E)} (hent : entries s = U ++ (start.leaf, ea) :: V) (hb : (stop.leaf, eb) ∈ U) :
    iterRangeCore s start stop incl = .ok (((start.leaf, ea) :: V).map (sliceOf start stop)) := by
  obtain ⟨u, v, o, rfl, rfl, hea⟩ := entries_split w hent
  have hlo : start.leaf ∈ order s := by rw [o]; simp
  have hu : stop.leaf ∈ u := by
    have hf := entriesOf_fst w (fun l hl => (mem_order w).mp (by rw [o]; exact List.mem_append_left _ hl) : ∀ l ∈ u, lpar s l ≠ none)
    rw [← hf]
    exact List.mem_map.mpr ⟨_, hb, rfl⟩
  have hle : stop.leaf ∈ order s := by rw [o]; simp [hu]
  obtain ⟨i, rest, p1, p2, p3⟩ := getPath_leaf w hh ((mem_order w).mp hlo)
  obtain ⟨ie, reste, q1, q2, q3⟩ := getPath_leaf w hh ((mem_order w).mp hle)
  have nd := order_nodup w
  rw [o, List.nodup_append] at nd
  have hni : stop.leaf ∉ start.leaf :: v := fun hc => nd.2.2 stop.leaf hu stop.leaf hc rfl
  have hlen := order_length_le w
  rw [o] at hlen
  simp only [List.length_append, List.length_cons] at hlen
  obtain ⟨R, r1, r2⟩ := iterNodesF_tail w ne (le := stop.leaf) (ie := ie) (leafFuel s) start.leaf i rest u (start.leaf :: v) p2 p3 o rfl hni
    (by rw [leafFuel]; simp; omega)
  have hfil : (entriesOf s (start.leaf :: v)).filter (fun x => !decide (stop.leaf = x.1 ∧ stop.offset = 0 ∧ incl = false)) =
      entriesOf s (start.leaf :: v) := by
    rw [List.filter_eq_self]
    intro x hx
    have : ¬ (stop.leaf = x.1 ∧ stop.offset = 0 ∧ incl = false) := by
      intro hc
      apply hni
      have hf := entriesOf_fst w (fun l hl => (mem_order w).mp (by rw [o]; exact List.mem_append_right _ hl) : ∀ l ∈ start.leaf :: v, lpar s l ≠ none)
      rw [← hf, hc.1]
      exact List.mem_map.mpr ⟨x, hx, rfl⟩
    simp only [decide_eq_false this]; rfl
  simp only [iterRangeCore, p1, q1, bind_ok, List.head?_cons, r1, rangeSlices_spec start stop incl R _ r2, hfil]
  rw [entriesOf_cons hea]

/-- both cuts of an inverted range in units -/
theorem inv_content {W : Type} {cont : E → List W} (K : ContentLaw B A.okE cont) (g : Good A s lvl h) {a b : Cursor} {i n n' : Nat} {L R X Y : List (Nat × E)}
    (hp : posOf B (abs s) a = some i) (k1 : specCut B (abs s) b = .ok (L, R, n)) (k2 : specCut B ⟨n, L ++ R⟩ a = .ok (X, Y, n')) :
    content cont X = (content cont (abs s).es).take i ∧ content cont Y = (content cont (abs s).es).drop i := by
  have hfr : (abs s).next ∉ (abs s).es.map Prod.fst := by
    show s.lf.items.length ∉ (entries s).map Prod.fst
    rw [entries_fst g.wf]; exact fresh_order g.wf
  have hok : ∀ x ∈ (abs s).es, A.okE x.2 := fun x hx => g.okE x.1 x.2 ((entries_mem g.wf).mp hx)
  have hs : ∀ e i x y, A.okE e → 0 < i → i < B.rleLen e → B.split e i = .ok (x, y) → A.okE x ∧ A.okE y := by
    intro e i x y he h0 h1 hs
    obtain ⟨x', y', q1, q2, q3, -⟩ := A.split e i he h0 h1
    rw [hs] at q1
    cases q1
    exact ⟨q2, q3⟩
  have hp' := posOf_cut K.splitLen hok (entries_nodup g.wf) hfr k1 hp
  have hok' := specCut_ok hs hok k1
  have hc : content cont (L ++ R) = content cont (abs s).es := by
    obtain ⟨j, hj⟩ : ∃ j, posOf B (abs s) b = some j := by
      unfold posOf
      unfold specCut at k1
      cases hl : locate b.leaf (abs s).es with
      | none => rw [hl] at k1; cases k1
      | some r => exact ⟨_, rfl⟩
    obtain ⟨c1, c2⟩ := specCut_content K.len K.split hok k1 hj
    rw [content_append, c1, c2, List.take_append_drop]
  have := specCut_content K.len K.split hok' k2 hp'
  rwa [hc] at this

end
end GB

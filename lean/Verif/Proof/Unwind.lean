import Verif.Spec.Unwind
import Verif.Proof.UpdateRange
import Verif.Proof.RangesEdge
import Verif.Props.C89

/-!
# What a panic of a closure leaves
-/

namespace GB
variable {E C D Q F σ Arg : Type} {B : Trait E C D} {A : Law B} {s s' t : Tree E C} {lvl : Nat → Nat} {h : Nat}
open Tree

/-- `t` is `s` with other elements in the leaves `ws`; nothing else was written -/
structure Over (A : Law B) (s t : Tree E C) (ws : List Nat) : Prop where
  sh : SameShape s t
  inn : t.inn = s.inn
  rc : t.rootCache = s.rootCache
  elm : ∀ k, k ∉ ws → elm t k = elm s k
  ok : ∀ k e, GB.elm t k = some e → A.okE e
  live : ∀ k ∈ ws, GB.elm t k ≠ none

theorem Over.refl (ok : ∀ k e, GB.elm s k = some e → A.okE e) : Over A s s [] := ⟨SameShape.refl s, rfl, rfl, fun _ _ => rfl, ok, by simp⟩

/-- one more leaf is written -/
theorem Over.set {ws : List Nat} (o : Over A s t ws) {l q : Nat} {e e' : E} (hl : t.lf.get l = some ⟨e, q⟩) (he : A.okE e') : Over A s (t.setLf l ⟨e', q⟩) (ws ++ [l]) := by
  refine ⟨o.sh.trans (SameShape.setLf hl rfl), o.inn, o.rc, ?_, ?_, ?_⟩
  · intro k hk
    simp only [List.mem_append, List.mem_singleton, not_or] at hk
    rw [elm_upd hl, if_neg hk.2, o.elm k hk.1]
  · intro k x hx
    rw [elm_upd hl] at hx
    split at hx
    · cases hx; exact he
    · exact o.ok k x hx
  · intro k hk
    rw [elm_upd hl]
    split
    · simp
    · next hkl =>
      refine o.live k ?_
      rcases List.mem_append.mp hk with hk | hk
      · exact hk
      · exact absurd (List.mem_singleton.mp hk) hkl

theorem Over.sound {m : Fill} {ws : List Nat} (o : Over A s t ws) (g : Good A s lvl h) (sz : Sz m s h) : SoundH A.okE m h t :=
  ⟨⟨lvl, o.sh.wf g.wf⟩, SzX.congr o.sh sz, o.ok⟩

theorem Over.chs {ws : List Nat} (o : Over A s t ws) (p : Nat) : chs t p = chs s p := by
  unfold GB.chs; rw [o.inn]

/-- recomputing the caches above the leaves that were written repairs the tree -/
theorem Over.repair {m : Fill} (hm : 1 ≤ m.lo) {ws : List Nat} (o : Over A s t ws) (hne : ws ≠ []) (g : Good A s lvl h) (sz : Sz m s h) :
    ∃ s', repairRun B t (ws.map fun l => .fix l false none) = .ok s' ∧ InvH A m h s' ∧ abs s' = abs t := by
  have w := o.sh.wf g.wf
  refine C89_paths A.calcW hm (o.sound g sz) (fun p c hc => ?_) (fun l hl => ?_) hne (fun p c hc => ?_)
  · rw [o.chs] at hc
    exact g.cok p c hc
  · obtain ⟨e, he⟩ := Option.ne_none_iff_exists'.mp (o.live l hl)
    exact List.mem_map.mpr ⟨_, (entries_mem w).mpr he, rfl⟩
  · rw [o.chs] at hc
    have ho := g.cinv p c hc (fun h => h)
    unfold EntryOK at ho ⊢
    cases ha : c.arena with
    | internal y => rw [ha] at ho; refine .inl ?_; show _ = A.total (cch t y); unfold cch; rw [o.chs]; exact ho
    | leaf l =>
      rw [ha] at ho
      by_cases hl : l ∈ ws
      · exact .inr ⟨l, hl, .inl rfl⟩
      · refine .inl fun e he => ho e ?_
        rwa [o.elm l hl] at he

/-- A closure that may panic, but leaves a valid element in any case. -/
def KeepsOK (A : Law B) (f : σ → E → Except E (σ × E × Option D)) : Prop :=
  ∀ st e, A.okE e → (∀ e', f st e = .error e' → A.okE e') ∧ ∀ st' e' d, f st e = .ok (st', e', d) → A.okE e'

/-- the loop of `update` when the closure panics -/
theorem updateFU_spec {f : σ → E → Except E (σ × E × Option D)} (hf : KeepsOK A f) {s0 : Tree E C} {Z : List Nat} {stop : Option Nat} : ∀ (Y : List Nat) (n : Nat) (s : Tree E C) (st : σ)
    (X ws : List Nat) (dm : List (Idx × D)) (rm : List Nat) (l i : Nat) (rest : List PIdx) (done : List (Nat × E)) (k : Nat) (e' : E) (todo : List (Nat × E)),
    WF s lvl h → NE s → Over A s0 s ws → order s = X ++ Y ++ Z → (Y ++ Z).head? = some l → (∀ y ∈ Y, stop ≠ some y) →
    PathTo s (⟨.leaf l, i⟩ :: rest) → rest.length = h → Y.length < n →
    runUntil f st (entriesOf s Y) = .error (done, (k, e'), todo) →
    ∃ t, updateFU B f stop n st s (⟨.leaf l, i⟩ :: rest) rm dm = .ok (.error t) ∧ Over A s0 t (ws ++ (done.map Prod.fst ++ [k])) ∧
      entries t = entriesOf s X ++ done ++ (k, e') :: todo ++ entriesOf s Z := by
  intro Y
  induction Y with
  | nil =>
    intro n s st X ws dm rm l i rest done k e' todo _ _ _ _ _ _ _ _ _ hr
    rw [entriesOf_nil] at hr
    cases hr
  | cons y Y ih =>
    intro n s st X ws dm rm l i rest done k e' todo w ne o ho hl hns hp hlen hn hr
    have hl : y = l := by simpa using hl
    subst hl
    obtain ⟨n, rfl⟩ : ∃ n', n = n' + 1 := ⟨n - 1, by simp at hn; omega⟩
    have nd := order_nodup w
    have hy : y ∈ order s := by rw [ho]; simp
    have hstop : ¬ stop = some y := hns y (by simp)
    obtain ⟨⟨e, q⟩, hL⟩ := lpar_isSome.mp ((mem_order w).mp hy)
    have hel : elm s y = some e := elm_of hL
    have hyX : y ∉ X := by
      intro hx
      rw [ho, List.append_assoc, List.nodup_append] at nd
      exact nd.2.2 y hx y (by simp) rfl
    have hXYZ : y ∉ Y ∧ y ∉ Z := by
      rw [ho, List.append_assoc, List.nodup_append] at nd
      have := (List.nodup_cons.mp nd.2.1).1
      exact ⟨fun h => this (by simp [h]), fun h => this (by simp [h])⟩
    rw [entriesOf_cons hel] at hr
    obtain ⟨k1, k2⟩ := hf st e (o.ok y e hel)
    have hkeepG : ∀ (x : E) (ls : List Nat), y ∉ ls → entriesOf (s.setLf y ⟨x, q⟩) ls = entriesOf s ls := by
      intro x ls hls
      refine entriesOf_congr (fun k hk => ?_)
      rw [elm_upd hL, if_neg (fun e : k = y => hls (e ▸ hk))]
    cases hfe : f st e with
    | error x =>
      simp only [runUntil, hfe, Except.error.injEq, Prod.mk.injEq] at hr
      obtain ⟨rfl, ⟨rfl, rfl⟩, rfl⟩ := hr
      refine ⟨s.setLf y ⟨x, q⟩, ?_, by simpa using o.set hL (k1 x hfe), ?_⟩
      · simp only [updateFU, unwrap, List.head?_cons, bind_ok, Idx.unwrapLeaf, if_neg hstop, getLf_ok hL, hfe, pure_ok]
      · rw [entries, (SameShape.setLf (N' := ⟨x, q⟩) hL rfl).order, ho, entriesOf_append, entriesOf_append, hkeepG x X hyX, hkeepG x Z hXYZ.2,
          entriesOf_cons (e := x) (by rw [elm_upd hL, if_pos rfl]), hkeepG x Y hXYZ.1]
        simp
    | ok r =>
      obtain ⟨st1, x, d⟩ := r
      have sh1 : SameShape s (s.setLf y ⟨x, q⟩) := SameShape.setLf hL rfl
      have o1 := o.set hL (k2 st1 x d hfe)
      have hkeep := hkeepG x
      have hel1 : elm (s.setLf y ⟨x, q⟩) y = some x := by rw [elm_upd hL, if_pos rfl]
      generalize hs1 : s.setLf y ⟨x, q⟩ = s1 at sh1 o1 hkeep hel1
      simp only [runUntil, hfe] at hr
      cases hr2 : runUntil f st1 (entriesOf s Y) with
      | ok z => rw [hr2] at hr; cases hr
      | error z =>
        obtain ⟨done1, at1, todo1⟩ := z
        rw [hr2] at hr
        simp only [Except.error.injEq, Prod.mk.injEq] at hr
        obtain ⟨rfl, rfl, rfl⟩ := hr
        have ho1 : order s1 = X ++ (y :: Y) ++ Z := sh1.order.trans ho
        obtain ⟨u, v, hrow, hcase⟩ := nextSibling_spec (sh1.wf w) (ne.shape sh1) (hp.shape sh1) rfl (by omega)
        rw [hlen] at hrow
        obtain ⟨u', v', o1', rfl, rfl⟩ := path_leaf_order (sh1.wf w) (i := i) (rest := rest) hrow
        obtain ⟨-, hv'⟩ := order_uniq (sh1.wf w) (l := y) (u := X) (v := Y ++ Z) (by rw [ho1]; simp) o1'
        subst hv'
        rcases hcase with ⟨hnil, hnext⟩ | ⟨b, v', j, rest', hv, hnext, hp', hlen'⟩
        · have hYZ : Y = [] ∧ Z = [] := by simpa using hnil
          rw [hYZ.1, entriesOf_nil] at hr2
          cases hr2
        · obtain ⟨l', hl', rfl⟩ : ∃ l', (Y ++ Z).head? = some l' ∧ b = .leaf l' := by
            cases hYZ : Y ++ Z with
            | nil => rw [hYZ] at hv; simp at hv
            | cons l' t => rw [hYZ] at hv; simp at hv; exact ⟨l', rfl, hv.1.symm⟩
          obtain ⟨t, r1, r2, r3⟩ := ih n s1 st1 (X ++ [y]) (ws ++ [y]) (match d with | some d => dmInsert dm (.leaf y) d | none => dm)
            (if B.canRemove x then rm ++ [y] else rm) l' j rest' done1 k e' todo1 (sh1.wf w) (ne.shape sh1) o1 (by rw [ho1]; simp) hl'
            (fun y hy => hns y (by simp [hy])) hp' (by omega) (by simp at hn; omega) (by rw [hkeep Y hXYZ.1]; exact hr2)
          refine ⟨t, ?_, by simpa using r2, ?_⟩
          · simp only [updateFU, unwrap, List.head?_cons, bind_ok, Idx.unwrapLeaf, if_neg hstop, getLf_ok hL, hfe, hs1, hnext]
            cases d <;> exact r1
          · rw [r3, entriesOf_append, hkeep X hyX, entriesOf_cons hel1, entriesOf_nil, hkeep Z hXYZ.2]
            simp

/-- the loop of `update` when the closure does not panic -/
theorem updateFU_run {f : σ → E → Except E (σ × E × Option D)} (hf : KeepsOK A f) {s0 : Tree E C} {Z : List Nat} {stop : Option Nat} (hz : Z ≠ [] → stop = Z.head?) : ∀ (Y : List Nat) (n : Nat) (s : Tree E C) (st : σ)
    (X ws : List Nat) (dm : List (Idx × D)) (rm : List Nat) (l i : Nat) (rest : List PIdx) (r : σ × List (Nat × E)),
    WF s lvl h → NE s → Over A s0 s ws → order s = X ++ Y ++ Z → (Y ++ Z).head? = some l → (∀ y ∈ Y, stop ≠ some y) →
    PathTo s (⟨.leaf l, i⟩ :: rest) → rest.length = h → Y.length < n →
    runUntil f st (entriesOf s Y) = .ok r →
    ∃ s' rm' dm', updateFU B f stop n st s (⟨.leaf l, i⟩ :: rest) rm dm = .ok (.ok (r.1, s', rm', dm')) := by
  intro Y
  induction Y with
  | nil =>
    intro n s st X ws dm rm l i rest r _ _ _ _ hl _ _ _ hn hr
    obtain ⟨n, rfl⟩ : ∃ n', n = n' + 1 := ⟨n - 1, by simp at hn; omega⟩
    have hl : stop = some l := by
      have hl : Z.head? = some l := by simpa using hl
      rw [hz (by rintro rfl; cases hl), hl]
    rw [entriesOf_nil] at hr
    cases hr
    exact ⟨s, rm, dm, by simp [updateFU, unwrap, bind_ok, Idx.unwrapLeaf, hl, pure_ok]⟩
  | cons y Y ih =>
    intro n s st X ws dm rm l i rest r w ne o ho hl hns hp hlen hn hr
    have hl : y = l := by simpa using hl
    subst hl
    obtain ⟨n, rfl⟩ : ∃ n', n = n' + 1 := ⟨n - 1, by simp at hn; omega⟩
    have nd := order_nodup w
    have hy : y ∈ order s := by rw [ho]; simp
    have hstop : ¬ stop = some y := hns y (by simp)
    obtain ⟨⟨e, q⟩, hL⟩ := lpar_isSome.mp ((mem_order w).mp hy)
    have hel : elm s y = some e := elm_of hL
    have hyY : y ∉ Y := by
      rw [ho, List.append_assoc, List.nodup_append] at nd
      have := (List.nodup_cons.mp nd.2.1).1
      exact fun h => this (by simp [h])
    rw [entriesOf_cons hel] at hr
    cases hfe : f st e with
    | error x => simp only [runUntil, hfe] at hr; cases hr
    | ok z =>
      obtain ⟨st1, x, d⟩ := z
      have sh1 : SameShape s (s.setLf y ⟨x, q⟩) := SameShape.setLf hL rfl
      have o1 := o.set hL ((hf st e (o.ok y e hel)).2 st1 x d hfe)
      have hkeep : entriesOf (s.setLf y ⟨x, q⟩) Y = entriesOf s Y := by
        refine entriesOf_congr (fun k hk => ?_)
        rw [elm_upd hL, if_neg (fun e : k = y => hyY (e ▸ hk))]
      generalize hs1 : s.setLf y ⟨x, q⟩ = s1 at sh1 o1 hkeep
      simp only [runUntil, hfe] at hr
      cases hr2 : runUntil f st1 (entriesOf s Y) with
      | error z => obtain ⟨z1, z2, z3⟩ := z; rw [hr2] at hr; cases hr
      | ok z =>
        obtain ⟨st2, Y2⟩ := z
        rw [hr2] at hr
        cases hr
        have ho1 : order s1 = X ++ (y :: Y) ++ Z := sh1.order.trans ho
        obtain ⟨u, v, hrow, hcase⟩ := nextSibling_spec (sh1.wf w) (ne.shape sh1) (hp.shape sh1) rfl (by omega)
        rw [hlen] at hrow
        obtain ⟨u', v', o1', rfl, rfl⟩ := path_leaf_order (sh1.wf w) (i := i) (rest := rest) hrow
        obtain ⟨-, hv'⟩ := order_uniq (sh1.wf w) (l := y) (u := X) (v := Y ++ Z) (by rw [ho1]; simp) o1'
        subst hv'
        rcases hcase with ⟨hnil, hnext⟩ | ⟨b, v', j, rest', hv, hnext, hp', hlen'⟩
        · have hYZ : Y = [] ∧ Z = [] := by simpa using hnil
          rw [hYZ.1, entriesOf_nil] at hr2
          cases hr2
          simp only [updateFU, unwrap, List.head?_cons, bind_ok, Idx.unwrapLeaf, if_neg hstop, getLf_ok hL, hfe, hs1, hnext]
          exact ⟨_, _, _, rfl⟩
        · obtain ⟨l', hl', rfl⟩ : ∃ l', (Y ++ Z).head? = some l' ∧ b = .leaf l' := by
            cases hYZ : Y ++ Z with
            | nil => rw [hYZ] at hv; simp at hv
            | cons l' t => rw [hYZ] at hv; simp at hv; exact ⟨l', rfl, hv.1.symm⟩
          obtain ⟨s', rm', dm', r1⟩ := ih n s1 st1 (X ++ [y]) (ws ++ [y]) (match d with | some d => dmInsert dm (.leaf y) d | none => dm)
            (if B.canRemove x then rm ++ [y] else rm) l' j rest' (st2, Y2) (sh1.wf w) (ne.shape sh1) o1 (by rw [ho1]; simp) hl'
            (fun y hy => hns y (by simp [hy])) hp' (by omega) (by simp at hn; omega) (by rw [hkeep]; exact hr2)
          refine ⟨s', rm', dm', ?_⟩
          simp only [updateFU, unwrap, List.head?_cons, bind_ok, Idx.unwrapLeaf, if_neg hstop, getLf_ok hL, hfe, hs1, hnext]
          cases d <;> exact r1

/-- `update` is not unwound if the closure does not panic in the range -/
theorem updateU_run {m : Fill} (hm1 : 1 ≤ m.lo) (hm5 : m.lo + m.d ≤ 5) {ho : HashOrd E}
    {f : σ → E → Except E (σ × E × Option D)} (hf : KeepsOK A f) (st : σ) (g : Good A s lvl h) (sz : Sz m s h) (hsl : SplitLen B A.okE)
    {a b : Cursor} {ea eb : E} {Ua Va Ub Vb : List Nat}
    (ha : order s = Ua ++ a.leaf :: Va) (hea : elm s a.leaf = some ea) (hoa : a.offset ≤ B.rleLen ea)
    (hb : order s = Ub ++ b.leaf :: Vb) (heb : elm s b.leaf = some eb) (hob : b.offset ≤ B.rleLen eb)
    (hle : NotBehind B Ua Ub Vb a b eb) : (∃ r, specUnwind B f st (abs s) a b = .ok r) ∧
    (specUnwind B f st (abs s) a b = .ok none → updateU B ho f st s a b ≠ .ok (.error t)) := by
  obtain ⟨ei, s1, si, s2, lvl2, h2, X, Y, Z, c1, c2, g2, sz2, hst, hord, n1, n2, -, -, L', n, k1, k2, -⟩ :=
    drain_cuts hm1 hm5 g sz hsl ha hea hoa hb heb hob hle
  simp only [specUnwind, k1, bind_ok, k2, List.length_append, Nat.add_sub_cancel, List.take_left]
  cases hr : runUntil f st (entriesOf s2 Y) with
  | error z => obtain ⟨z1, z2, z3⟩ := z; exact ⟨⟨_, rfl⟩, fun h => (by cases h)⟩
  | ok z =>
    refine ⟨⟨_, rfl⟩, fun _ hu => ?_⟩
    simp only [updateU, c1, bind_ok, c2] at hu
    cases hl : (Y ++ Z).head? with
    | none => rw [hl] at n2; rw [n2] at hu; cases hu
    | some l =>
      rw [hl] at n2
      have hlm : l ∈ order s2 := by
        rw [hord, List.append_assoc]
        exact List.mem_append_right _ (List.mem_of_head? hl)
      have hstop : ei.newPos.map Cursor.leaf = Z.head? := by
        rw [n1, Option.map_map]
        cases Z.head? <;> rfl
      have nd := order_nodup g2.wf
      rw [hord, List.nodup_append] at nd
      simp only [n2, Option.map_some, hstop] at hu
      obtain ⟨path, hpath, hu⟩ := bind_inv hu
      have h9 : h2 ≤ 9 := by
        refine Nat.le_of_not_lt fun hc => ?_
        rw [getPath_full g2.wf hc ((mem_order g2.wf).mp hlm)] at hpath
        cases hpath
      obtain ⟨i, rest, p1, p2, p3⟩ := getPath_leaf g2.wf h9 ((mem_order g2.wf).mp hlm)
      rw [p1] at hpath
      cases hpath
      have hfuel : Y.length < leafFuel s2 := by
        have := order_length_le g2.wf
        rw [hord] at this
        simp only [List.length_append] at this
        simp only [leafFuel]
        omega
      obtain ⟨s', rm', dm', r1⟩ := updateFU_run hf (B := B) (s0 := s2) (Z := Z) (stop := Z.head?) (fun _ => rfl) Y (leafFuel s2) s2 st X [] [] [] l i rest z g2.wf (Sz.ne sz2 hm1) (Over.refl g2.okE) hord hl
        (fun y hy hc => nd.2.2 y (by simp [hy]) y (List.mem_of_head? hc) rfl) p2 p3 hfuel hr
      rw [r1] at hu
      simp only [bind_ok] at hu
      obtain ⟨x, -, hu⟩ := bind_inv hu
      obtain ⟨y, -, hu⟩ := bind_inv hu
      cases hu

/-- `update` when the closure panics -/
theorem updateU_spec {m : Fill} (hm1 : 1 ≤ m.lo) (hm5 : m.lo + m.d ≤ 5) {ho : HashOrd E}
    {f : σ → E → Except E (σ × E × Option D)} (hf : KeepsOK A f) (st : σ) (g : Good A s lvl h) (sz : Sz m s h) (hsl : SplitLen B A.okE)
    {a b : Cursor} {ea eb : E} {Ua Va Ub Vb : List Nat}
    (ha : order s = Ua ++ a.leaf :: Va) (hea : elm s a.leaf = some ea) (hoa : a.offset ≤ B.rleLen ea)
    (hb : order s = Ub ++ b.leaf :: Vb) (heb : elm s b.leaf = some eb) (hob : b.offset ≤ B.rleLen eb)
    (hle : NotBehind B Ua Ub Vb a b eb) (hh : h ≤ 8) {sp : Seq E} {ws : List Nat} (hsp : specUnwind B f st (abs s) a b = .ok (some (sp, ws))) :
    ∃ t s2 lvl2 h2, updateU B ho f st s a b = .ok (.error t) ∧ Good A s2 lvl2 h2 ∧ Sz m s2 h2 ∧ h2 ≤ h + 1 ∧ Over A s2 t ws ∧ ws ≠ [] ∧ abs t = sp := by
  obtain ⟨ei, s1, si, s2, lvl2, h2, X, Y, Z, c1, c2, g2, sz2, hst, hord, n1, n2, -, -, L', n, k1, k2, -⟩ :=
    drain_cuts hm1 hm5 g sz hsl ha hea hoa hb heb hob hle
  have hh2 := hst.le.2
  simp only [specUnwind, k1, bind_ok, k2, List.length_append, Nat.add_sub_cancel, List.take_left] at hsp
  cases hr : runUntil f st (entriesOf s2 Y) with
  | ok z => rw [hr] at hsp; cases hsp
  | error z =>
    obtain ⟨done, ⟨k, e'⟩, todo⟩ := z
    rw [hr] at hsp
    simp only [pure_ok, Except.ok.injEq, Option.some.injEq, Prod.mk.injEq] at hsp
    obtain ⟨rfl, rfl⟩ := hsp
    have hY : Y ≠ [] := by rintro rfl; rw [entriesOf_nil] at hr; cases hr
    obtain ⟨l, hl⟩ : ∃ l, (Y ++ Z).head? = some l := Option.ne_none_iff_exists'.mp (by simp [hY])
    rw [hl] at n2
    have hlm : l ∈ order s2 := by
      rw [hord, List.append_assoc]
      exact List.mem_append_right _ (List.mem_of_head? hl)
    have hstop : ei.newPos.map Cursor.leaf = Z.head? := by
      rw [n1, Option.map_map]
      cases Z.head? <;> rfl
    have nd := order_nodup g2.wf
    rw [hord, List.nodup_append] at nd
    obtain ⟨i, rest, p1, p2, p3⟩ := getPath_leaf g2.wf (by omega) ((mem_order g2.wf).mp hlm)
    have hfuel : Y.length < leafFuel s2 := by
      have := order_length_le g2.wf
      rw [hord] at this
      simp only [List.length_append] at this
      simp only [leafFuel]
      omega
    obtain ⟨t, r1, r2, r3⟩ := updateFU_spec hf (s0 := s2) (Z := Z) (stop := Z.head?) Y (leafFuel s2) s2 st X [] [] [] l i rest done k e' todo g2.wf (Sz.ne sz2 hm1) (Over.refl g2.okE) hord hl
      (fun y hy hc => nd.2.2 y (by simp [hy]) y (List.mem_of_head? hc) rfl) p2 p3 hfuel hr
    refine ⟨t, s2, lvl2, h2, ?_, g2, sz2, hh2, by simpa using r2, by simp, ?_⟩
    · simp only [updateU, c1, bind_ok, c2, n2, Option.map_some, p1, hstop, r1, pure_ok]
    · rw [abs, r3, r2.sh.lfitems]

/-! ## Forgetting what is left -/

theorem updateFU_forget (f : σ → E → Except E (σ × E × Option D)) (stop : Option Nat) : ∀ (n : Nat) (st : σ) (s : Tree E C) (path : List PIdx) (rm : List Nat) (dm : List (Idx × D)),
    updateF B (fun st e => strict (f st e)) stop n st s path rm dm = forget (updateFU B f stop n st s path rm dm) := by
  intro n
  induction n with
  | zero => intros; rfl
  | succ n ih =>
    intro st s path rm dm
    rw [updateF, updateFU]
    cases unwrap path.head? with
    | error _ => rfl
    | ok cur =>
      simp only [bind_ok]
      cases cur.arena.unwrapLeaf with
      | error _ => rfl
      | ok l =>
        simp only [bind_ok]
        split
        · rfl
        · cases s.getLf l with
          | error _ => rfl
          | ok leaf =>
            simp only [bind_ok]
            cases f st leaf.elem with
            | error _ => rfl
            | ok r =>
              obtain ⟨st1, e, d⟩ := r
              simp only [strict, bind_ok]
              cases nextSibling (s.setLf l { leaf with elem := e }) path with
              | error _ => rfl
              | ok p =>
                cases p with
                | none => rfl
                | some p => exact ih _ _ _ _ _

theorem updateU_forget (ho : HashOrd E) (f : σ → E → Except E (σ × E × Option D)) (st : σ) (s : Tree E C) (a b : Cursor) :
    update B ho (fun st e => strict (f st e)) st s a b = forget (updateU B ho f st s a b) := by
  rw [update, updateU]
  cases splitLeafIfNeeded B s b with
  | error _ => rfl
  | ok x =>
    obtain ⟨ei, s1⟩ := x
    simp only [bind_ok]
    cases splitLeafIfNeeded B s1 a with
    | error _ => rfl
    | ok x =>
      obtain ⟨si, s2⟩ := x
      simp only [bind_ok]
      cases si.newPos with
      | none => rfl
      | some c =>
        simp only
        cases getPath s2 (.leaf c.leaf) with
        | error _ => rfl
        | ok path =>
          simp only [bind_ok, updateFU_forget]
          cases updateFU B f (ei.newPos.map Cursor.leaf) (leafFuel s2) st s2 path [] [] with
          | error _ => rfl
          | ok x =>
            cases x with
            | error _ => rfl
            | ok x =>
              obtain ⟨st3, s3, rm, dm⟩ := x
              simp only [forget, bind_ok]
              have key : ∀ y : M (Tree E C), (do
                  let s ← y
                  let s ← removeAll B s rm
                  pure (st3, ei.newLeaf.toList ++ si.newLeaf.toList, s) : M (σ × List Nat × Tree E C)) = forget (do
                  let s ← y
                  let s ← removeAll B s rm
                  pure (.ok (st3, ei.newLeaf.toList ++ si.newLeaf.toList, s)) : M (Except (Tree E C) (σ × List Nat × Tree E C))) := by
                intro y
                cases y with
                | error _ => rfl
                | ok s4 =>
                  simp only [bind_ok]
                  cases removeAll B s4 rm <;> rfl
              exact key _

theorem updateLeafU_forget (s : Tree E C) (l : Nat) (f : E → Except E (E × Bool × Option E × Option E)) :
    updateLeaf B s l (fun e => strict (f e)) = forget (updateLeafU B s l f) := by
  rw [updateLeafU]
  cases hg : s.getLf l with
  | error _ => rw [updateLeaf, hg]; rfl
  | ok node =>
    simp only [bind_ok]
    cases hf : f node.elem with
    | error _ => simp only [updateLeaf, hg, bind_ok, hf, strict]; rfl
    | ok r =>
      have : updateLeaf B s l (fun e => strict (f e)) = updateLeaf B s l fun _ => .ok r := by
        simp only [updateLeaf, hg, bind_ok, hf, strict]
      simp only [this]
      cases updateLeaf B s l fun _ => .ok r <;> rfl

theorem bySearchU_forget (q : Query E C Q F) (s : Tree E C) (arg : Q) (f : E → QueryResult → Except E (E × Option (D × Option E × Option E))) :
    updateLeafBySearch B q s arg (fun e r => strict (f e r)) = forget (bySearchU B q s arg f) := by
  rw [bySearchU]
  cases he : isEmpty s with
  | error _ => rw [updateLeafBySearch, he]; rfl
  | ok em =>
    cases em with
    | true => rw [updateLeafBySearch, he]; rfl
    | false =>
      simp only [bind_ok, if_neg Bool.false_ne_true]
      cases hp : searchPathF q arg (s.fuel + 1) s (.internal s.root) 0 [] (q.init arg) with
      | error _ => simp only [updateLeafBySearch, he, bind_ok, hp, if_neg Bool.false_ne_true]; rfl
      | ok x =>
        obtain ⟨l, arr, path, fd⟩ := x
        simp only [bind_ok]
        cases hg : s.getLf l with
        | error _ => simp only [updateLeafBySearch, he, bind_ok, hp, hg, if_neg Bool.false_ne_true]; rfl
        | ok leaf =>
          simp only [bind_ok]
          cases hc : q.confirm fd arg leaf.elem with
          | error _ => simp only [updateLeafBySearch, he, bind_ok, hp, hg, hc, if_neg Bool.false_ne_true]; rfl
          | ok y =>
            obtain ⟨⟨offset, found⟩, fd'⟩ := y
            simp only [bind_ok]
            cases hf : f leaf.elem ⟨⟨l, offset⟩, found⟩ with
            | error _ => simp only [updateLeafBySearch, he, bind_ok, hp, hg, hc, hf, strict, if_neg Bool.false_ne_true]; rfl
            | ok r =>
              have : updateLeafBySearch B q s arg (fun e r => strict (f e r)) = updateLeafBySearch B q s arg fun _ _ => .ok r := by
                simp only [updateLeafBySearch, he, bind_ok, hp, hg, hc, hf, strict, if_neg Bool.false_ne_true]
              rw [this]
              split
              · next h => cases h
              · next h =>
                cases h
                simp only [updateLeafBySearch, he, bind_ok, hp, hg, hc, if_neg Bool.false_ne_true]; rfl
              · next h =>
                cases h
                cases updateLeafBySearch B q s arg fun _ _ => .ok r <;> rfl

theorem applyGroupU_forget (f : σ → E → Arg → Except E (σ × E)) (test : Nat → Nat → Bool) : ∀ (gs : List (Nat × Nat × Arg)) (st : σ) (e : E),
    applyGroup (fun st e a => strict (f st e a)) test gs st e = strict (applyGroupU f test gs st e) := by
  intro gs
  induction gs with
  | nil => intros; rfl
  | cons g gs ih =>
    obtain ⟨a, b, arg⟩ := g
    intro st e
    rw [applyGroup, applyGroupU]
    split
    · cases f st e arg with
      | error _ => rfl
      | ok r => exact ih _ _
    · exact ih _ _

theorem wholeGroupU_forget (f : σ → E → Arg → Except E (σ × E)) (len : Nat) : ∀ (gs : List (Nat × Nat × Arg)) (st : σ) (e : E),
    (do
      assertM (gs.all fun g => g.1 = 0 ∧ g.2.1 = len)
      applyGroup (fun st e a => strict (f st e a)) (fun _ _ => true) gs st e) = strict (wholeGroupU f len gs st e) := by
  intro gs
  induction gs with
  | nil => intros; rfl
  | cons g gs ih =>
    obtain ⟨a, b, arg⟩ := g
    intro st e
    rw [wholeGroupU, List.all_cons]
    split
    · next h =>
      simp only [h, and_self, decide_true, Bool.true_and]
      cases hf : f st e arg with
      | error _ =>
        cases gs.all fun g => decide (g.1 = 0 ∧ g.2.1 = len)
        · rfl
        · simp only [assertM, if_true, bind_ok, applyGroup, hf, strict]; rfl
      | ok r =>
        rw [← ih]
        cases gs.all fun g => decide (g.1 = 0 ∧ g.2.1 = len)
        · rfl
        · simp only [assertM, if_true, bind_ok, applyGroup, hf, strict]
    · next h =>
      simp only [h, decide_false, Bool.false_and]
      rfl

theorem middlePiecesU_forget (f : σ → E → Arg → Except E (σ × E)) (group : List (Nat × Nat × Arg)) : ∀ (ps : List Nat) (st : σ) (last : Nat) (e : E),
    middlePieces B (fun st e a => strict (f st e a)) group ps st last e = (do unwrap (← middlePiecesU B f group ps st last e)) := by
  intro ps
  induction ps with
  | nil => intros; rfl
  | cons p ps ih =>
    intro st last e
    rw [middlePieces, middlePiecesU]
    cases B.split e (p - last) with
    | error _ => rfl
    | ok x =>
      obtain ⟨x, next⟩ := x
      simp only [bind_ok, applyGroupU_forget, ih]
      cases applyGroupU f (fun a b => decide (a ≤ last ∧ p ≤ b)) group st x with
      | error _ => rfl
      | ok y =>
        obtain ⟨st1, x1⟩ := y
        simp only [strict, bind_ok]
        cases middlePiecesU B f group ps st1 p next with
        | error _ => rfl
        | ok z => cases z <;> rfl

theorem updOneLeafU_forget (f : σ → E → Arg → Except E (σ × E)) (group : List (Nat × Nat × Arg)) (st : σ) (e : E) :
    updOneLeaf B (fun st e a => strict (f st e a)) group st e = (do strict (← updOneLeafU B f group st e)) := by
  rw [updOneLeaf, updOneLeafU]
  simp only
  cases splitPoints (B.rleLen e) group with
  | nil =>
    have := wholeGroupU_forget f (B.rleLen e) group st e
    simp only at this ⊢
    cases hw : wholeGroupU f (B.rleLen e) group st e with
    | error x =>
      rw [hw] at this
      cases ha : assertM (group.all fun g => decide (g.1 = 0 ∧ g.2.1 = B.rleLen e)) with
      | error _ => rw [ha] at this; cases this; rfl
      | ok _ =>
        rw [ha] at this
        simp only [bind_ok] at this ⊢
        rw [this]; rfl
    | ok x =>
      rw [hw] at this
      cases ha : assertM (group.all fun g => decide (g.1 = 0 ∧ g.2.1 = B.rleLen e)) with
      | error _ => rw [ha] at this; cases this
      | ok _ =>
        rw [ha] at this
        simp only [bind_ok] at this ⊢
        rw [this]; rfl
  | cons first rest =>
    simp only
    cases B.split e first with
    | error _ => rfl
    | ok x =>
      obtain ⟨x, tail⟩ := x
      simp only [bind_ok, applyGroupU_forget, middlePiecesU_forget]
      cases applyGroupU f (fun a _ => decide (a = 0)) group st x with
      | error _ => rfl
      | ok y =>
        obtain ⟨st1, x1⟩ := y
        simp only [strict, bind_ok]
        cases middlePiecesU B f group rest st1 first tail with
        | error _ => rfl
        | ok z =>
          cases z with
          | none => rfl
          | some z =>
            obtain ⟨st2, mids, lastE⟩ := z
            simp only [bind_ok, unwrap]
            cases applyGroupU f (fun _ b => decide (b = B.rleLen e)) group st2 lastE <;> rfl

theorem updGroupsU_forget (f : σ → E → Arg → Except E (σ × E)) (args : List (Nat × Nat × Nat × Arg)) :
    ∀ (ls : List Nat) (st : σ) (s : Tree E C) (dm : List (Idx × D)) (nw : List (Cursor × List E)),
    updGroups B (fun st e a => strict (f st e a)) args ls st s dm nw = forget (updGroupsU B f args ls st s dm nw) := by
  intro ls
  induction ls with
  | nil => intros; rfl
  | cons l ls ih =>
    intro st s dm nw
    rw [updGroups, updGroupsU]
    cases s.getLf l with
    | error _ => rfl
    | ok leaf =>
      simp only [bind_ok, updOneLeafU_forget]
      cases updOneLeafU B f ((args.filter fun a => a.1 = l).map Prod.snd) st leaf.elem with
      | error _ => rfl
      | ok x =>
        cases x with
        | error _ => rfl
        | ok x => exact ih _ _ _ _

theorem updateLeavesU_forget (ho : HashOrd E) (f : σ → E → Arg → Except E (σ × E)) (st : σ) (s : Tree E C) (args : List (Nat × Nat × Nat × Arg)) :
    updateLeavesWithArg B ho (fun st e a => strict (f st e a)) st s args = forget (updateLeavesU B ho f st s args) := by
  rw [updateLeavesWithArg, updateLeavesU]
  simp only [updGroupsU_forget]
  cases updGroupsU B f args (ho.grp (args.map fun a => a.1).eraseDups) st s [] [] with
  | error _ => rfl
  | ok x =>
    cases x with
    | error _ => rfl
    | ok x =>
      obtain ⟨st1, s1, dm, nw⟩ := x
      simp only [forget, bind_ok]
      cases updateDirty B ho s1 dm with
      | error _ => rfl
      | ok s2 =>
        simp only [bind_ok]
        cases insertChains B s2 (ho.cur nw) [] <;> rfl

/-! ## What `update_leaves_with_arg_in_ranges` leaves -/

/-- A closure that may panic, but leaves a valid element in any case. -/
def KeepsArg (A : Law B) (f : σ → E → Arg → Except E (σ × E)) : Prop :=
  ∀ st e a, A.okE e → (∀ e', f st e a = .error e' → A.okE e') ∧ ∀ st' e', f st e a = .ok (st', e') → A.okE e'

theorem applyGroupU_ok {f : σ → E → Arg → Except E (σ × E)} (hf : KeepsArg A f) (test : Nat → Nat → Bool) : ∀ (gs : List (Nat × Nat × Arg)) (st : σ) (e : E), A.okE e →
    (∀ e', applyGroupU f test gs st e = .error e' → A.okE e') ∧ ∀ st' e', applyGroupU f test gs st e = .ok (st', e') → A.okE e' := by
  intro gs
  induction gs with
  | nil => intro st e he; refine ⟨fun e' h => (by cases h), fun st' e' h => ?_⟩; cases h; exact he
  | cons g gs ih =>
    obtain ⟨a, b, arg⟩ := g
    intro st e he
    rw [applyGroupU]
    split
    · cases hx : f st e arg with
      | error x => refine ⟨fun e' h => ?_, fun st' e' h => (by cases h)⟩; cases h; exact (hf st e arg he).1 _ hx
      | ok r => exact ih _ _ ((hf st e arg he).2 _ _ hx)
    · exact ih _ _ he

theorem wholeGroupU_ok {f : σ → E → Arg → Except E (σ × E)} (hf : KeepsArg A f) (len : Nat) : ∀ (gs : List (Nat × Nat × Arg)) (st : σ) (e : E), A.okE e →
    (∀ e', wholeGroupU f len gs st e = .error e' → A.okE e') ∧ ∀ st' e', wholeGroupU f len gs st e = .ok (st', e') → A.okE e' := by
  intro gs
  induction gs with
  | nil => intro st e he; refine ⟨fun e' h => (by cases h), fun st' e' h => ?_⟩; cases h; exact he
  | cons g gs ih =>
    obtain ⟨a, b, arg⟩ := g
    intro st e he
    rw [wholeGroupU]
    split
    · cases hx : f st e arg with
      | error x => refine ⟨fun e' h => ?_, fun st' e' h => (by cases h)⟩; cases h; exact (hf st e arg he).1 _ hx
      | ok r => exact ih _ _ ((hf st e arg he).2 _ _ hx)
    · refine ⟨fun e' h => ?_, fun st' e' h => (by cases h)⟩; cases h; exact he

theorem updOneLeafU_ok {f : σ → E → Arg → Except E (σ × E)} (hf : KeepsArg A f) {group : List (Nat × Nat × Arg)} {e : E} (he : A.okE e) (hin : GroupIn (B.rleLen e) group) (st : σ) :
    (∀ e', updOneLeafU B f group st e = .ok (.error e') → A.okE e') ∧ ∀ st' e' es, updOneLeafU B f group st e = .ok (.ok (st', e', es)) → A.okE e' := by
  have hle : ∀ g ∈ group, g.1 ≤ B.rleLen e ∧ g.2.1 ≤ B.rleLen e := fun g hg => by have := hin g hg; omega
  rw [updOneLeafU]
  simp only [splitPoints_eq hle]
  cases hc : cutPoints (B.rleLen e) group with
  | nil =>
    simp only
    obtain ⟨h1, h2⟩ := wholeGroupU_ok hf (B.rleLen e) group st e he
    cases hw : wholeGroupU f (B.rleLen e) group st e with
    | error x => refine ⟨fun e' h => ?_, fun _ _ _ h => (by cases h)⟩; cases h; exact h1 _ hw
    | ok x => refine ⟨fun _ h => (by cases h), fun _ _ _ h => ?_⟩; cases h; exact h2 _ _ hw
  | cons first rest =>
    obtain ⟨c1, c2⟩ := cut_bounds (group := group) (len := B.rleLen e) (x := first) (by rw [hc]; simp)
    obtain ⟨x, tail, s1, s2, -⟩ := A.split e first he c1 c2
    simp only [s1, bind_ok]
    obtain ⟨h1, h2⟩ := applyGroupU_ok hf (fun a _ => decide (a = 0)) group st x s2
    cases hw : applyGroupU f (fun a _ => decide (a = 0)) group st x with
    | error y => refine ⟨fun e' h => ?_, fun _ _ _ h => (by cases h)⟩; cases h; exact h1 _ hw
    | ok y =>
      obtain ⟨st1, x1⟩ := y
      have hx := h2 _ _ hw
      simp only
      cases middlePiecesU B f group rest st1 first tail with
      | error _ => exact ⟨fun _ h => (by cases h), fun _ _ _ h => (by cases h)⟩
      | ok z =>
        cases z with
        | none => refine ⟨fun e' h => ?_, fun _ _ _ h => (by cases h)⟩; cases h; exact hx
        | some z =>
          obtain ⟨st2, mids, lastE⟩ := z
          simp only [bind_ok]
          cases applyGroupU f (fun _ b => decide (b = B.rleLen e)) group st2 lastE with
          | error _ => refine ⟨fun e' h => ?_, fun _ _ _ h => (by cases h)⟩; cases h; exact hx
          | ok w => refine ⟨fun _ h => (by cases h), fun _ _ _ h => ?_⟩; cases h; exact hx

theorem applyGroupU_left (f : σ → E → Arg → Except E (σ × E)) : ∀ (gs : List (Nat × Nat × Arg)) (st : σ) (e : E),
    (∀ e', applyGroupU f (fun a _ => decide (a = 0)) gs st e = .error e' → stopAt f (gs.filter fun g => g.1 = 0) st e = e') ∧
    ∀ st' e', applyGroupU f (fun a _ => decide (a = 0)) gs st e = .ok (st', e') → stopAt f (gs.filter fun g => g.1 = 0) st e = e' := by
  intro gs
  induction gs with
  | nil => intro st e; refine ⟨fun e' h => (by cases h), fun st' e' h => ?_⟩; cases h; rfl
  | cons g gs ih =>
    obtain ⟨a, b, arg⟩ := g
    intro st e
    rw [applyGroupU, List.filter_cons]
    by_cases ha : a = 0
    · simp only [ha, decide_true, if_true, stopAt]
      cases hx : f st e arg with
      | error x => refine ⟨fun e' h => ?_, fun st' e' h => (by cases h)⟩; cases h; rfl
      | ok r => exact ih _ _
    · simp only [ha, decide_false, Bool.false_eq_true, if_false]
      exact ih _ _

theorem wholeGroupU_left (f : σ → E → Arg → Except E (σ × E)) (len : Nat) : ∀ (gs : List (Nat × Nat × Arg)) (st : σ) (e : E),
    (∀ e', wholeGroupU f len gs st e = .error e' → stopAt f (gs.takeWhile fun g => g.1 = 0 ∧ g.2.1 = len) st e = e') ∧
    ∀ st' e', wholeGroupU f len gs st e = .ok (st', e') → stopAt f (gs.takeWhile fun g => g.1 = 0 ∧ g.2.1 = len) st e = e' := by
  intro gs
  induction gs with
  | nil => intro st e; refine ⟨fun e' h => (by cases h), fun st' e' h => ?_⟩; cases h; rfl
  | cons g gs ih =>
    obtain ⟨a, b, arg⟩ := g
    intro st e
    rw [wholeGroupU, List.takeWhile_cons]
    by_cases ha : a = 0 ∧ b = len
    · rw [if_pos ha, if_pos (decide_eq_true ha), stopAt]
      cases hx : f st e arg with
      | error x => refine ⟨fun e' h => ?_, fun st' e' h => (by cases h)⟩; cases h; rfl
      | ok r => exact ih _ _
    · rw [if_neg ha, if_neg (by simpa using ha)]
      refine ⟨fun e' h => ?_, fun st' e' h => (by cases h)⟩; cases h; rfl

theorem updOneLeafU_left {f : σ → E → Arg → Except E (σ × E)} {group : List (Nat × Nat × Arg)} {e : E} (hin : GroupIn (B.rleLen e) group) (st : σ) :
    (∀ e', updOneLeafU B f group st e = .ok (.error e') → firstLeft B f group st e = .ok e') ∧
    ∀ st' e' es, updOneLeafU B f group st e = .ok (.ok (st', e', es)) → firstLeft B f group st e = .ok e' := by
  have hle : ∀ g ∈ group, g.1 ≤ B.rleLen e ∧ g.2.1 ≤ B.rleLen e := fun g hg => by have := hin g hg; omega
  rw [updOneLeafU, firstLeft]
  simp only [splitPoints_eq hle]
  cases cutPoints (B.rleLen e) group with
  | nil =>
    simp only
    obtain ⟨h1, h2⟩ := wholeGroupU_left f (B.rleLen e) group st e
    cases hw : wholeGroupU f (B.rleLen e) group st e with
    | error x => refine ⟨fun e' h => ?_, fun _ _ _ h => (by cases h)⟩; cases h; rw [h1 _ hw]; rfl
    | ok x => refine ⟨fun _ h => (by cases h), fun _ _ _ h => ?_⟩; cases h; rw [h2 _ _ hw]; rfl
  | cons first rest =>
    simp only
    cases B.split e first with
    | error _ => exact ⟨fun _ h => (by cases h), fun _ _ _ h => (by cases h)⟩
    | ok x =>
      obtain ⟨x, tail⟩ := x
      simp only [bind_ok]
      obtain ⟨h1, h2⟩ := applyGroupU_left f group st x
      cases hw : applyGroupU f (fun a _ => decide (a = 0)) group st x with
      | error y => refine ⟨fun e' h => ?_, fun _ _ _ h => (by cases h)⟩; cases h; rw [h1 _ hw]; rfl
      | ok y =>
        obtain ⟨st1, x1⟩ := y
        rw [h2 _ _ hw]
        simp only
        cases middlePiecesU B f group rest st1 first tail with
        | error _ => exact ⟨fun _ h => (by cases h), fun _ _ _ h => (by cases h)⟩
        | ok z =>
          cases z with
          | none => refine ⟨fun e' h => ?_, fun _ _ _ h => (by cases h)⟩; cases h; rfl
          | some z =>
            obtain ⟨st2, mids, lastE⟩ := z
            simp only [bind_ok]
            cases applyGroupU f (fun _ b => decide (b = B.rleLen e)) group st2 lastE with
            | error _ => refine ⟨fun e' h => ?_, fun _ _ _ h => (by cases h)⟩; cases h; rfl
            | ok w => refine ⟨fun _ h => (by cases h), fun _ _ _ h => ?_⟩; cases h; rfl

/-- every leaf of `ws` holds its first piece -/
def FirstLeft (B : Trait E C D) (f : σ → E → Arg → Except E (σ × E)) (args : List (Nat × Nat × Nat × Arg)) (s t : Tree E C) (ws : List Nat) : Prop :=
  ∀ l ∈ ws, ∃ st e e', elm s l = some e ∧ elm t l = some e' ∧ firstLeft B f ((args.filter fun a => a.1 = l).map Prod.snd) st e = .ok e'

theorem FirstLeft.set {f : σ → E → Arg → Except E (σ × E)} {args : List (Nat × Nat × Nat × Arg)} {s0 : Tree E C} {ws : List Nat} (hfl : FirstLeft B f args s0 s ws)
    {l q : Nat} {e e' : E} (hL : s.lf.get l = some ⟨e, q⟩) (hl : l ∉ ws) (hel : elm s0 l = some e) {st : σ}
    (h : firstLeft B f ((args.filter fun a => a.1 = l).map Prod.snd) st e = .ok e') : FirstLeft B f args s0 (s.setLf l ⟨e', q⟩) (ws ++ [l]) := by
  intro k hk
  rcases List.mem_append.mp hk with hk | hk
  · obtain ⟨st, e, e', h1, h2, h3⟩ := hfl k hk
    exact ⟨st, e, e', h1, by rw [elm_upd hL, if_neg (fun h : k = l => hl (h ▸ hk))]; exact h2, h3⟩
  · cases List.mem_singleton.mp hk
    exact ⟨st, e, e', hel, by rw [elm_upd hL, if_pos rfl], h⟩

theorem updGroupsU_over {f : σ → E → Arg → Except E (σ × E)} (hf : KeepsArg A f) {args : List (Nat × Nat × Nat × Arg)} {s0 : Tree E C} :
    ∀ (ls : List Nat) (st : σ) (s : Tree E C) (dm : List (Idx × D)) (nw : List (Cursor × List E)) (ws : List Nat), ls.Nodup → (∀ l ∈ ls, l ∉ ws) → Over A s0 s ws → FirstLeft B f args s0 s ws →
    (∀ l ∈ ls, ∀ e, elm s0 l = some e → GroupIn (B.rleLen e) ((args.filter fun a => a.1 = l).map Prod.snd)) →
    updGroupsU B f args ls st s dm nw = .ok (.error t) → ∃ ws', ws' ≠ [] ∧ ws' <+: ls ∧ Over A s0 t (ws ++ ws') ∧ FirstLeft B f args s0 t (ws ++ ws') := by
  intro ls
  induction ls with
  | nil => intro st s dm nw ws _ _ _ _ _ h; cases h
  | cons l ls ih =>
    intro st s dm nw ws nd hws o hfl hin hu
    rw [List.nodup_cons] at nd
    rw [updGroupsU] at hu
    obtain ⟨leaf, hg, hu⟩ := bind_inv hu
    obtain ⟨e, q⟩ := leaf
    have hL : s.lf.get l = some ⟨e, q⟩ := by
      unfold getLf at hg
      cases hx : s.lf.get l with
      | none => rw [hx] at hg; cases hg
      | some y => rw [hx] at hg; cases hg; rfl
    have hel : elm s0 l = some e := by rw [← o.elm l (hws l (by simp))]; exact elm_of hL
    obtain ⟨k1, k2⟩ := updOneLeafU_ok hf (o.ok l e (elm_of hL)) (hin l (by simp) e hel) st
    obtain ⟨j1, j2⟩ := updOneLeafU_left (f := f) (hin l (by simp) e hel) st
    obtain ⟨r, hr, hu⟩ := bind_inv hu
    cases r with
    | error e' =>
      cases hu
      exact ⟨[l], by simp, by simp, o.set hL (k1 e' hr), hfl.set hL (hws l (by simp)) hel (j1 e' hr)⟩
    | ok r =>
      obtain ⟨st1, e', es⟩ := r
      obtain ⟨ws', w1, w2, w3, w4⟩ := ih _ _ _ _ (ws ++ [l]) nd.2 (by
        intro k hk hc
        rcases List.mem_append.mp hc with hc | hc
        · exact hws k (by simp [hk]) hc
        · cases List.mem_singleton.mp hc; exact nd.1 hk) (o.set hL (k2 st1 e' es hr)) (hfl.set hL (hws l (by simp)) hel (j2 st1 e' es hr)) (fun k hk => hin k (by simp [hk])) hu
      exact ⟨l :: ws', by simp, by simpa using w2, by simpa using w3, by simpa using w4⟩

end GB

import Verif.Proof.PathCap
import Verif.Proof.Dirty
import Verif.Proof.DrainNew
import Verif.Proof.Iter
import Verif.Spec.Range

/-!
# `update`: the loop over the range and the removal of empty leaves
-/

namespace GB
variable {E C D σ : Type} {B : Trait E C D} {A : Law B} {R : C → D → C → Prop} {s s' : Tree E C} {lvl : Nat → Nat} {h : Nat}
open Tree

/-- The closure does not panic, keeps elements valid, and the diff it returns tells the change of the cache (no diff: no change). -/
def ClosureOK (A : Law B) (R : C → D → C → Prop) (f : σ → E → M (σ × E × Option D)) : Prop :=
  ∀ st e, A.okE e → ∃ st' e' d, f st e = .ok (st', e', d) ∧ A.okE e' ∧
    (∀ x, d = some x → R (B.elemCache e) x (B.elemCache e')) ∧ (d = none → B.elemCache e' = B.elemCache e)

theorem PathTo.shape (sh : SameShape s s') {path : List PIdx} (hp : PathTo s path) : PathTo s' path := by
  induction hp with
  | root => rw [← sh.root]; exact .root
  | step he _ ih => exact .step (sh.edge.mpr he) ih

theorem elm_upd {l q : Nat} {e e' : E} (hl : s.lf.get l = some ⟨e, q⟩) (k : Nat) :
    elm (s.setLf l ⟨e', q⟩) k = if k = l then some e' else elm s k := by
  rw [elm_setLf s (lpar_isSome.mpr ⟨_, hl⟩)]

/-- a new element in a leaf, with its diff noted -/
theorem DI.leaf {dm : List (Idx × D)} (di : DI A R s lvl h dm (dm.map Prod.fst) [] 0) {l q : Nat} {e e' : E} (hl : s.lf.get l = some ⟨e, q⟩)
    (hnew : Idx.leaf l ∉ dm.map Prod.fst) (hok : A.okE e') {d : Option D} (h1 : ∀ x, d = some x → R (B.elemCache e) x (B.elemCache e'))
    (h2 : d = none → B.elemCache e' = B.elemCache e) {dm' : List (Idx × D)}
    (hd1 : ∀ x, d = some x → dm' = dmInsert dm (.leaf l) x) (hd2 : d = none → dm' = dm) :
    DI A R (s.setLf l ⟨e', q⟩) lvl h dm' (dm'.map Prod.fst) [] 0 ∧ SameShape s (s.setLf l ⟨e', q⟩) := by
  have sh : SameShape s (s.setLf l ⟨e', q⟩) := SameShape.setLf hl rfl
  refine ⟨?_, sh⟩
  have w := di.good.wf
  have hel := elm_of hl
  have hoke : ∀ k x, elm (s.setLf l ⟨e', q⟩) k = some x → A.okE x := by
    intro k x hx
    rw [elm_upd hl] at hx
    split at hx
    · cases hx; exact hok
    · exact di.good.okE k x hx
  -- the entry of the leaf before
  have hbefore : ∀ (p : Nat) (c : Child C), c ∈ chs s p → c.arena = .leaf l → c.cache = B.elemCache e := by
    intro p c hc ha
    have := di.good.cinv p c hc (by rw [ha]; simpa using hnew)
    simp only [EntryOK, ha] at this
    exact this e hel
  have hother : ∀ (c : Child C), c.arena ≠ .leaf l → EntryOK A s c → EntryOK A (s.setLf l ⟨e', q⟩) c := by
    intro c hn ho
    unfold EntryOK at ho ⊢
    cases ha : c.arena with
    | leaf k =>
      rw [ha] at ho hn
      intro x hx
      rw [elm_upd hl, if_neg (fun e => hn (by rw [e]))] at hx
      exact ho x hx
    | internal y => rw [ha] at ho; exact ho
  have hotherD : ∀ (c : Child C) d, c.arena ≠ .leaf l → EntryDiff A R s c d → EntryDiff A R (s.setLf l ⟨e', q⟩) c d := by
    intro c d hn ho
    unfold EntryDiff at ho ⊢
    cases ha : c.arena with
    | leaf k =>
      rw [ha] at ho hn
      intro x hx
      rw [elm_upd hl, if_neg (fun e => hn (by rw [e]))] at hx
      exact ho x hx
    | internal y => rw [ha] at ho; exact ho
  cases d with
  | none =>
    have hdm := hd2 rfl
    subst hdm
    have h2 := h2 rfl
    refine ⟨⟨sh.wf w, ?_, di.good.cok, di.good.rok, hoke⟩, di.ne.shape sh, di.nd, di.vnd, fun a ha => (di.kat a ha).shape sh, by simp, di.pend, di.free, ?_⟩
    · intro p c hc hx
      by_cases ha : c.arena = .leaf l
      · simp only [EntryOK, ha]
        intro x hx
        rw [elm_upd hl, if_pos rfl] at hx
        cases hx
        rw [h2]
        exact hbefore p c hc ha
      · exact hother c ha (di.good.cinv p c hc hx)
    · intro a d hd p c hc ha
      refine hotherD c d ?_ (di.diff a d hd p c hc ha)
      intro e
      rw [← ha, e, dmGet_none.mpr hnew] at hd
      cases hd
  | some d =>
    have hdm := hd1 d rfl
    have h1 := h1 d rfl
    have hmem : ∀ a, a ∈ dm'.map Prod.fst ↔ a = .leaf l ∨ a ∈ dm.map Prod.fst := by
      intro a
      have : a ∉ dm'.map Prod.fst ↔ ¬ (a = .leaf l ∨ a ∈ dm.map Prod.fst) := by
        rw [← dmGet_none, hdm, dmGet_insert, not_or, ← dmGet_none]
        by_cases e : a = .leaf l
        · simp [e]
        · simp [e]
      exact Decidable.not_iff_not.mp this
    have hnd : (dm'.map Prod.fst).Nodup := by
      rw [hdm]
      unfold dmInsert dmErase
      rw [List.map_cons, List.nodup_cons]
      constructor
      · simp
      · exact di.nd.sublist (List.filter_sublist.map _)
    refine ⟨⟨sh.wf w, ?_, di.good.cok, di.good.rok, hoke⟩, di.ne.shape sh, hnd, di.vnd, ?_, by simp, ?_, ?_, ?_⟩
    · intro p c hc hx
      have hx' : ¬ (c.arena = .leaf l ∨ c.arena ∈ dm.map Prod.fst) := fun e => hx (.inl ((hmem _).mpr e))
      rw [not_or] at hx'
      exact hother c hx'.1 (di.good.cinv p c hc (by simpa using hx'.2))
    · intro a ha
      rcases (hmem a).mp ha with rfl | ha
      · exact AtLvl.shape sh ⟨rfl, lpar_isSome.mpr ⟨_, hl⟩⟩
      · exact (di.kat a ha).shape sh
    · intro a ha
      apply Option.ne_none_iff_exists'.mp
      rw [ne_eq, dmGet_none]
      simpa using ha
    · intro a ha
      rw [dmGet_none]
      simpa using ha
    · intro a x hd p c hc ha
      rw [hdm, dmGet_insert] at hd
      split at hd
      · next hal =>
        cases hd
        subst hal
        simp only [EntryDiff, ha]
        intro y hy
        rw [elm_upd hl, if_pos rfl] at hy
        cases hy
        rw [hbefore p c hc ha]
        exact h1
      · next hal =>
        exact hotherD c x (by rw [ha]; exact hal) (di.diff a x hd p c hc ha)

theorem runOn_ok {f : σ → E → M (σ × E × Option D)} (hf : ClosureOK A R f) : ∀ (es : List (Nat × E)) (st : σ), (∀ x ∈ es, A.okE x.2) →
    ∃ st' es', runOn f st es = .ok (st', es') ∧ (∀ x ∈ es', A.okE x.2) ∧ es'.map Prod.fst = es.map Prod.fst := by
  intro es
  induction es with
  | nil => intro st _; exact ⟨st, [], rfl, by simp, rfl⟩
  | cons x es ih =>
    intro st hok
    obtain ⟨l, e⟩ := x
    obtain ⟨st1, e', d, h1, h2, -⟩ := hf st e (hok (l, e) (by simp))
    obtain ⟨st2, es', h3, h4, h5⟩ := ih st1 (fun x hx => hok x (by simp [hx]))
    refine ⟨st2, (l, e') :: es', by simp only [runOn, h1, bind_ok, h3, pure_ok], ?_, by simp [h5]⟩
    intro x hx
    rcases List.mem_cons.mp hx with rfl | hx
    · exact h2
    · exact h4 x hx

/-- the loop of `update` -/
theorem updateF_spec {f : σ → E → M (σ × E × Option D)} (hf : ClosureOK A R f) {Z : List Nat} {stop : Option Nat} (hz : Z ≠ [] → stop = Z.head?) : ∀ (Y : List Nat) (n : Nat) (s : Tree E C) (st : σ)
    (X : List Nat) (dm : List (Idx × D)) (rm : List Nat) (l i : Nat) (rest : List PIdx),
    DI A R s lvl h dm (dm.map Prod.fst) [] 0 → order s = X ++ Y ++ Z → (Y ++ Z).head? = some l → (∀ y ∈ Y, stop ≠ some y) →
    (∀ a ∈ dm.map Prod.fst, ∃ k ∈ X, a = .leaf k) → PathTo s (⟨.leaf l, i⟩ :: rest) → rest.length = h → Y.length < n →
    ∃ st' s' dm' Y', updateF B f stop n st s (⟨.leaf l, i⟩ :: rest) rm dm =
        .ok (st', s', rm ++ (Y'.filter (fun x => B.canRemove x.2)).map Prod.fst, dm') ∧
      runOn f st (entriesOf s Y) = .ok (st', Y') ∧ DI A R s' lvl h dm' (dm'.map Prod.fst) [] 0 ∧ SameShape s s' ∧
      entries s' = entriesOf s X ++ Y' ++ entriesOf s Z := by
  intro Y
  induction Y with
  | nil =>
    intro n s st X dm rm l i rest di ho hl _ _ _ _ hn
    obtain ⟨n, rfl⟩ : ∃ n', n = n' + 1 := ⟨n - 1, by simp at hn; omega⟩
    have hl : stop = some l := by
      have hl : Z.head? = some l := by simpa using hl
      rw [hz (by rintro rfl; cases hl), hl]
    refine ⟨st, s, dm, [], ?_, rfl, di, SameShape.refl s, ?_⟩
    · simp [updateF, unwrap, bind_ok, Idx.unwrapLeaf, hl, pure_ok]
    · rw [entries, ho]; simp [entriesOf_append, entriesOf_nil]
  | cons y Y ih =>
    intro n s st X dm rm l i rest di ho hl hns hdm hp hlen hn
    have hl : y = l := by simpa using hl
    subst hl
    obtain ⟨n, rfl⟩ : ∃ n', n = n' + 1 := ⟨n - 1, by simp at hn; omega⟩
    have w := di.good.wf
    have nd := order_nodup w
    have hy : y ∈ order s := by rw [ho]; simp
    have hstop : ¬ stop = some y := hns y (by simp)
    obtain ⟨⟨e, q⟩, hL⟩ := lpar_isSome.mp ((mem_order w).mp hy)
    have hel := elm_of hL
    obtain ⟨st1, e', d, f1, f2, f3, f4⟩ := hf st e (di.good.okE y e hel)
    have hyX : y ∉ X := by
      intro hx
      rw [ho, List.append_assoc, List.nodup_append] at nd
      exact nd.2.2 y hx y (by simp) rfl
    have hnew : Idx.leaf y ∉ dm.map Prod.fst := by
      intro hm
      obtain ⟨k, hk, e⟩ := hdm _ hm
      cases e
      exact hyX hk
    obtain ⟨dm1, hd1, hd2⟩ : ∃ dm1, (∀ x, d = some x → dm1 = dmInsert dm (.leaf y) x) ∧ (d = none → dm1 = dm) := by
      cases d with
      | none => exact ⟨dm, by simp, by simp⟩
      | some x => exact ⟨dmInsert dm (.leaf y) x, by simp, by simp⟩
    obtain ⟨di1, sh1⟩ := di.leaf hL hnew f2 f3 f4 hd1 hd2
    generalize hs1 : s.setLf y ⟨e', q⟩ = s1 at di1 sh1
    have hel1 : ∀ k, elm s1 k = if k = y then some e' else elm s k := fun k => by rw [← hs1]; exact elm_upd hL k
    have ho1 : order s1 = X ++ (y :: Y) ++ Z := sh1.order.trans ho
    have hkeep : ∀ ls : List Nat, y ∉ ls → entriesOf s1 ls = entriesOf s ls := by
      intro ls hls
      refine entriesOf_congr (fun k hk => ?_)
      rw [hel1, if_neg (fun e : k = y => hls (e ▸ hk))]
    have hXYZ : y ∉ Y ∧ y ∉ Z := by
      rw [ho, List.append_assoc, List.nodup_append] at nd
      have := (List.nodup_cons.mp nd.2.1).1
      exact ⟨fun h => this (by simp [h]), fun h => this (by simp [h])⟩
    have hrun : entriesOf s (y :: Y) = (y, e) :: entriesOf s Y := by
      rw [entriesOf_cons hel]
    have hout : entriesOf s1 (X ++ [y]) = entriesOf s X ++ [(y, e')] := by
      rw [entriesOf_append, hkeep X hyX, entriesOf_cons (e := e') (by rw [hel1, if_pos rfl]), entriesOf_nil]
    obtain ⟨u, v, hrow, hcase⟩ := nextSibling_spec (sh1.wf w) (di.ne.shape sh1) (hp.shape sh1) rfl (by omega)
    rw [hlen] at hrow
    obtain ⟨u', v', o1, rfl, rfl⟩ := path_leaf_order (sh1.wf w) (i := i) (rest := rest) hrow
    obtain ⟨-, hv'⟩ := order_uniq (sh1.wf w) (l := y) (u := X) (v := Y ++ Z) (by rw [ho1]; simp) o1
    subst hv'
    have hrmF : ∀ Y' : List (Nat × E), rm ++ (((y, e') :: Y').filter (fun x => B.canRemove x.2)).map Prod.fst =
        (if B.canRemove e' then rm ++ [y] else rm) ++ (Y'.filter (fun x => B.canRemove x.2)).map Prod.fst := by
      intro Y'
      rw [List.filter_cons]
      cases B.canRemove e' <;> simp
    have hhead : updateF B f stop (n + 1) st s (⟨.leaf y, i⟩ :: rest) rm dm = (do
        match ← nextSibling s1 (⟨.leaf y, i⟩ :: rest) with
        | none => pure (st1, s1, if B.canRemove e' then rm ++ [y] else rm, dm1)
        | some p' => updateF B f stop n st1 s1 p' (if B.canRemove e' then rm ++ [y] else rm) dm1) := by
      cases d with
      | none => rw [hd2 rfl]; simp only [updateF, unwrap, List.head?_cons, bind_ok, Idx.unwrapLeaf, if_neg hstop, getLf_ok hL, f1, hs1]; rfl
      | some x => rw [hd1 x rfl]; simp only [updateF, unwrap, List.head?_cons, bind_ok, Idx.unwrapLeaf, if_neg hstop, getLf_ok hL, f1, hs1]; rfl
    rcases hcase with ⟨hnil, hnext⟩ | ⟨b, v', j, rest', hv, hnext, hp', hlen'⟩
    · have hYZ : Y = [] ∧ Z = [] := by simpa using hnil
      obtain ⟨rfl, rfl⟩ := hYZ
      refine ⟨st1, s1, dm1, [(y, e')], ?_, ?_, di1, sh1, ?_⟩
      · rw [hhead, hnext, hrmF]
        simp [bind_ok, pure_ok]
      · rw [hrun]
        simp only [runOn, f1, bind_ok, entriesOf_nil, pure_ok]
      · rw [entries, ho1]
        simpa [entriesOf_nil] using hout
    · obtain ⟨l', hl', rfl⟩ : ∃ l', (Y ++ Z).head? = some l' ∧ b = .leaf l' := by
        cases hYZ : Y ++ Z with
        | nil => rw [hYZ] at hv; simp at hv
        | cons l' t => rw [hYZ] at hv; simp at hv; exact ⟨l', rfl, hv.1.symm⟩
      obtain ⟨st2, s2, dm2, Y', r1, r2, r3, r4, r5⟩ := ih n s1 st1 (X ++ [y]) dm1 (if B.canRemove e' then rm ++ [y] else rm) l' j rest' di1
        (by rw [ho1]; simp) hl' (fun y hy => hns y (by simp [hy])) (by
          intro a ha
          cases d with
          | none =>
            rw [hd2 rfl] at ha
            obtain ⟨k, hk, e⟩ := hdm a ha
            exact ⟨k, by simp [hk], e⟩
          | some d =>
            rw [hd1 d rfl] at ha
            have : a = .leaf y ∨ a ∈ dm.map Prod.fst := by
              simp only [dmInsert, dmErase, List.map_cons, List.mem_cons] at ha
              rcases ha with ha | ha
              · exact .inl ha
              · exact .inr ((List.filter_sublist.map _).subset ha)
            rcases this with rfl | ha
            · exact ⟨y, by simp, rfl⟩
            · obtain ⟨k, hk, e⟩ := hdm a ha
              exact ⟨k, by simp [hk], e⟩) hp' (by omega) (by simp at hn; omega)
      refine ⟨st2, s2, dm2, (y, e') :: Y', ?_, ?_, r3, sh1.trans r4, ?_⟩
      · rw [hhead, hnext, hrmF]
        simp only [bind_ok]
        exact r1
      · rw [hrun]
        rw [hkeep Y hXYZ.1] at r2
        simp only [runOn, f1, bind_ok, r2, pure_ok]
      · rw [r5, hout, hkeep Z hXYZ.2]
        simp

/-- removing a list of leaves -/
theorem removeAll_spec {m : Fill} (hm1 : 1 ≤ m.lo) (hm6 : m.lo + m.d ≤ 6) (hm : 2 ≤ m.lo ∨ LawE A) (P : Nat × E → Bool) : ∀ (Y : List (Nat × E)) (s : Tree E C) (lvl : Nat → Nat) (h : Nat)
    (X Z : List (Nat × E)), Good A s lvl h → Sz m s h → entries s = X ++ Y ++ Z →
    ∃ s' lvl' h', removeAll B s ((Y.filter P).map Prod.fst) = .ok s' ∧ Good A s' lvl' h' ∧ Sz m s' h' ∧ h' ≤ h ∧
      entries s' = X ++ Y.filter (fun x => !P x) ++ Z ∧ s'.lf.items.length = s.lf.items.length := by
  intro Y
  induction Y with
  | nil => intro s lvl h X Z g sz he; exact ⟨s, lvl, h, rfl, g, sz, Nat.le_refl _, by simpa using he, rfl⟩
  | cons y Y ih =>
    intro s lvl h X Z g sz he
    obtain ⟨l, e⟩ := y
    by_cases hc : P (l, e) = true
    · obtain ⟨s1, lvl1, h1, e1, g1, sz1, hh1, en1, -, len1⟩ := removeLeaf_spec (o := 0) hm1 hm6 hm g sz (l := l) (e := e) (U := X) (V := Y ++ Z) (by rw [he]; simp)
      obtain ⟨s2, lvl2, h2, e2, g2, sz2, hh2, en2, len2⟩ := ih s1 lvl1 h1 X Z g1 sz1 (by rw [en1]; simp)
      refine ⟨s2, lvl2, h2, ?_, g2, sz2, by omega, ?_, by omega⟩
      · rw [List.filter_cons, if_pos hc]
        simp only [List.map_cons, removeAll, e1, bind_ok, e2]
      · rw [en2, List.filter_cons, if_neg (by simp [hc])]
    · obtain ⟨s2, lvl2, h2, e2, g2, sz2, hh2, en2, len2⟩ := ih s lvl h (X ++ [(l, e)]) Z g sz (by rw [he]; simp)
      refine ⟨s2, lvl2, h2, ?_, g2, sz2, hh2, ?_, len2⟩
      · rw [List.filter_cons, if_neg hc]
        exact e2
      · rw [en2, List.filter_cons, if_pos (by simp [hc])]
        simp

theorem entriesOf_elm (ho : ∀ k, elm s' k = elm s k) (ls : List Nat) : entriesOf s' ls = entriesOf s ls := entriesOf_congr (fun k _ => ho k)

/-- `update` after the cuts: the loop, the caches and the removals -/
theorem update_tail {m : Fill} (hm1 : 1 ≤ m.lo) (hm5 : m.lo + m.d ≤ 5) (hm : 2 ≤ m.lo ∨ LawE A) (L : DiffLaw A R) {ho : HashOrd E} (hho : ∀ l, (ho.idx l).Perm l)
    {f : σ → E → M (σ × E × Option D)} (hf : ClosureOK A R f) (st : σ) (g : Good A s lvl h) (sz : Sz m s h) (h9 : h ≤ 9) {X Y Z : List Nat} {l : Nat}
    (hord : order s = X ++ Y ++ Z) (hl : (Y ++ Z).head? = some l) {stop : Option Nat} (hy : ∀ y ∈ Y, stop ≠ some y) (hz : Z ≠ [] → stop = Z.head?) (sp : List Nat) :
    ∃ st' s' lvl' h' Y', (do
        let path ← getPath s (.leaf l)
        let (st, s, rm, dm) ← updateF B f stop (leafFuel s) st s path [] []
        let s ← (match dm with
          | [] => updateRootCache B s
          | _ => updateDirty B ho s dm : M (Tree E C))
        let s ← removeAll B s rm
        pure (st, sp, s) : M (σ × List Nat × Tree E C)) = .ok (st', sp, s') ∧ Good A s' lvl' h' ∧ Sz m s' h' ∧ h' ≤ h ∧
      runOn f st (entriesOf s Y) = .ok (st', Y') ∧ entries s' = entriesOf s X ++ Y'.filter (fun x => !B.canRemove x.2) ++ entriesOf s Z ∧
      s'.lf.items.length = s.lf.items.length := by
  have hlm : l ∈ order s := by
    rw [hord, List.append_assoc]
    exact List.mem_append_right _ (List.mem_of_head? hl)
  have ne := Sz.ne sz hm1
  obtain ⟨i, rest, p1, p2, p3⟩ := getPath_leaf g.wf h9 ((mem_order g.wf).mp hlm)
  have di : DI A R s lvl h [] (([] : List (Idx × D)).map Prod.fst) [] 0 :=
    ⟨⟨g.wf, g.cinv.mono (fun _ h => h.elim), g.cok, fun hn => absurd trivial hn, g.okE⟩, ne, by simp, by simp, by simp, by simp, by simp,
      fun _ _ => rfl, by simp [dmGet]⟩
  have hfuel : Y.length < leafFuel s := by
    have := order_length_le g.wf
    rw [hord] at this
    simp only [List.length_append] at this
    simp only [leafFuel]
    omega
  obtain ⟨st3, s3, dm, Y', r1, r2, r3, r4, r5⟩ := updateF_spec hf hz Y (leafFuel s) s st X [] [] l i rest di hord hl hy (by simp) p2 p3 hfuel
  -- the caches
  obtain ⟨s4, e4, o4, g4⟩ : ∃ s4, (match dm with
      | [] => updateRootCache B s3
      | _ => updateDirty B ho s3 dm : M (Tree E C)) = .ok s4 ∧ OnlyCaches s3 s4 ∧ Good A s4 lvl h := by
    cases dm with
    | nil => exact updateRootCache_spec (r3.good.weaken (fun a ha => by simpa using ha) id)
    | cons x dm => exact updateDirty_spec L hho r3
  have hen4 : entries s4 = entriesOf s X ++ Y' ++ entriesOf s Z := by
    rw [← r5, entries, entries, o4.1.order]
    exact entriesOf_elm (fun k => by simp only [elm, o4.2]) _
  obtain ⟨s5, lvl5, h5, e5, g5, sz5, hh5, en5, len5⟩ := removeAll_spec hm1 (by omega) hm (fun x => B.canRemove x.2) Y' s4 lvl h (entriesOf s X) (entriesOf s Z) g4
    (SzX.congr (r4.trans o4.1) sz) hen4
  refine ⟨st3, s5, lvl5, h5, Y', ?_, g5, sz5, hh5, r2, en5, by rw [len5, o4.1.lfitems, r4.lfitems]⟩
  simp only [p1, bind_ok, r1, List.nil_append]
  cases dm with
  | nil =>
    have e4 : updateRootCache B s3 = .ok s4 := e4
    simp only [e4, bind_ok, e5, pure_ok]
  | cons x dm =>
    have e4 : updateDirty B ho s3 (x :: dm) = .ok s4 := e4
    simp only [e4, bind_ok, e5, pure_ok]

/-- the whole of `update`: right if the cuts leave at most 9 levels, and otherwise unless it panics -/
theorem update_core {m : Fill} (hm1 : 1 ≤ m.lo) (hm5 : m.lo + m.d ≤ 5) (hm : 2 ≤ m.lo ∨ LawE A) (L : DiffLaw A R) {ho : HashOrd E} (hho : ∀ l, (ho.idx l).Perm l)
    {f : σ → E → M (σ × E × Option D)} (hf : ClosureOK A R f) (st : σ) (g : Good A s lvl h) (sz : Sz m s h) (hsl : SplitLen B A.okE)
    {a b : Cursor} {ea eb : E} {Ua Va Ub Vb : List Nat}
    (ha : order s = Ua ++ a.leaf :: Va) (hea : elm s a.leaf = some ea) (hoa : a.offset ≤ B.rleLen ea)
    (hb : order s = Ub ++ b.leaf :: Vb) (heb : elm s b.leaf = some eb) (hob : b.offset ≤ B.rleLen eb)
    (hle : NotBehind B Ua Ub Vb a b eb)
    (hh : (h ≤ 9 ∧ (h = 9 → ¬ CutsRaise B s a b)) ∨ update B ho f st s a b ≠ .error .panic) :
    ∃ st' s' lvl' h', update B ho f st s a b = .ok (st', List.range' (abs s).next ((abs s').next - (abs s).next), s') ∧
      (abs s).next ≤ (abs s').next ∧ Good A s' lvl' h' ∧ Sz m s' h' ∧ h' ≤ h + 1 ∧
      ∃ L R X n Y Y', specCut B (abs s) b = .ok (L, R, n) ∧ specCut B ⟨n, L ++ R⟩ a = .ok (X, Y ++ R, s'.lf.items.length) ∧
        runOn f st Y = .ok (st', Y') ∧ entries s' = X ++ Y'.filter (fun x => !B.canRemove x.2) ++ R := by
  obtain ⟨ei, s1, si, s2, lvl2, h2, X, Y, Z, c1, c2, g2, sz2, hst, hord, n1, n2, -, p3, L', n, k1, k2, len2, hnew⟩ :=
    drain_cuts hm1 hm5 g sz hsl ha hea hoa hb heb hob hle
  have hh2 := hst.le.2
  have ne2 := Sz.ne sz2 hm1
  simp only [update, c1, bind_ok, c2] at hh ⊢
  cases hnp : si.newPos with
  | none =>
    rw [hnp] at n2
    have hYZ : Y = [] ∧ Z = [] := by
      cases hc : Y ++ Z with
      | nil => simpa using hc
      | cons x t => rw [hc] at n2; simp at n2
    obtain ⟨rfl, rfl⟩ := hYZ
    refine ⟨st, s2, lvl2, h2, by rw [hnew]; rfl, len2, g2, sz2, by omega,
      L', _, _, n, [], [], k1, by rw [k2, entriesOf_nil], rfl, ?_⟩
    rw [entries, hord]
    simp [entriesOf_nil]
  | some c =>
    rw [hnp] at n2
    obtain ⟨l, hl, hcl⟩ : ∃ l, (Y ++ Z).head? = some l ∧ c = ⟨l, 0⟩ := by
      cases hc : Y ++ Z with
      | nil => rw [hc] at n2; simp at n2
      | cons x t => rw [hc] at n2; simp at n2; exact ⟨x, rfl, n2⟩
    subst hcl
    have hlm : l ∈ order s2 := by
      rw [hord, List.append_assoc]
      exact List.mem_append_right _ (List.mem_of_head? hl)
    have h9 : h2 ≤ 9 := by
      rcases hh with ⟨hh, hr⟩ | hh
      · rcases hst with ⟨e1, -⟩ | ⟨e1, e2⟩
        · omega
        · have : h ≠ 9 := fun h => hr h e2
          omega
      · refine Nat.le_of_not_lt fun hc => hh ?_
        rw [hnp]
        simp only [getPath_full g2.wf hc ((mem_order g2.wf).mp hlm)]
        rfl
    have hstop : ei.newPos.map Cursor.leaf = Z.head? := by
      rw [n1, Option.map_map]
      cases Z.head? <;> rfl
    have nd := order_nodup g2.wf
    rw [hord, List.nodup_append] at nd
    obtain ⟨st3, s5, lvl5, h5, Y', r1, g5, sz5, hh5, r2, en5, hlen⟩ := update_tail hm1 hm5 hm L hho hf st g2 sz2 h9 hord hl (stop := Z.head?)
      (fun y hy hc => nd.2.2 y (by simp [hy]) y (List.mem_of_head? hc) rfl) (fun _ => rfl) (List.range' (abs s).next ((abs s2).next - (abs s).next))
    refine ⟨st3, s5, lvl5, h5, ?_, by rw [abs, abs, hlen]; exact len2, g5, sz5, by omega,
      L', _, _, n, _, Y', k1, by rw [hlen, k2], r2, en5⟩
    simp only [hstop, hnew]
    rw [show (abs s5).next = (abs s2).next from hlen]
    exact r1

/-- `update`: right on trees of at most 8 levels, and on all others unless it panics -/
theorem update_spec_at {m : Fill} (hm1 : 1 ≤ m.lo) (hm5 : m.lo + m.d ≤ 5) (hm : 2 ≤ m.lo ∨ LawE A) (L : DiffLaw A R) {ho : HashOrd E} (hho : ∀ l, (ho.idx l).Perm l)
    {f : σ → E → M (σ × E × Option D)} (hf : ClosureOK A R f) (st : σ) (g : Good A s lvl h) (sz : Sz m s h) (hsl : SplitLen B A.okE)
    {a b : Cursor} {ea eb : E} {Ua Va Ub Vb : List Nat}
    (ha : order s = Ua ++ a.leaf :: Va) (hea : elm s a.leaf = some ea) (hoa : a.offset ≤ B.rleLen ea)
    (hb : order s = Ub ++ b.leaf :: Vb) (heb : elm s b.leaf = some eb) (hob : b.offset ≤ B.rleLen eb)
    (hle : NotBehind B Ua Ub Vb a b eb)
    (hh : h ≤ 8 ∨ update B ho f st s a b ≠ .error .panic) :
    ∃ st' s' lvl' h', update B ho f st s a b = .ok (st', List.range' (abs s).next ((abs s').next - (abs s).next), s') ∧
      (abs s).next ≤ (abs s').next ∧ Good A s' lvl' h' ∧ Sz m s' h' ∧ h' ≤ h + 1 ∧
      ∃ L R X n Y Y', specCut B (abs s) b = .ok (L, R, n) ∧ specCut B ⟨n, L ++ R⟩ a = .ok (X, Y ++ R, s'.lf.items.length) ∧
        runOn f st Y = .ok (st', Y') ∧ entries s' = X ++ Y'.filter (fun x => !B.canRemove x.2) ++ R :=
  update_core hm1 hm5 hm L hho hf st g sz hsl ha hea hoa hb heb hob hle (hh.imp (fun h => ⟨by omega, by omega⟩) id)

/-- when `update` panics -/
theorem update_panics_at {m : Fill} (hm1 : 1 ≤ m.lo) (hm5 : m.lo + m.d ≤ 5) (hm : 2 ≤ m.lo ∨ LawE A) (L : DiffLaw A R) {ho : HashOrd E} (hho : ∀ l, (ho.idx l).Perm l)
    {f : σ → E → M (σ × E × Option D)} (hf : ClosureOK A R f) (st : σ) (g : Good A s lvl h) (sz : Sz m s h) (hsl : SplitLen B A.okE)
    {a b : Cursor} {ea eb : E} {Ua Va Ub Vb : List Nat}
    (ha : order s = Ua ++ a.leaf :: Va) (hea : elm s a.leaf = some ea) (hoa : a.offset ≤ B.rleLen ea)
    (hb : order s = Ub ++ b.leaf :: Vb) (heb : elm s b.leaf = some eb) (hob : b.offset ≤ B.rleLen eb)
    (hle : NotBehind B Ua Ub Vb a b eb)
    (hend : a.offset = 0 ∨ a.offset < B.rleLen ea ∨ Va ≠ []) :
    update B ho f st s a b = .error .panic ↔ 10 ≤ h ∨ h = 9 ∧ CutsRaise B s a b := by
  constructor
  · intro hp
    refine Classical.byContradiction fun hc => ?_
    obtain ⟨st', s', _, _, u1, -⟩ := update_core hm1 hm5 hm L hho hf st g sz hsl ha hea hoa hb heb hob hle (.inl ⟨by omega, fun h hr => hc (.inr ⟨h, hr⟩)⟩)
    rw [hp] at u1
    cases u1
  · intro hp
    obtain ⟨ei, s1, si, s2, lvl2, h2, X, Y, Z, c1, c2, g2, sz2, hst, hord, n1, n2, -, p3, L', n, k1, k2, -⟩ :=
      drain_cuts hm1 hm5 g sz hsl ha hea hoa hb heb hob hle
    have hne := p3 hend
    obtain ⟨y, hy⟩ : ∃ y, (Y ++ Z).head? = some y := Option.ne_none_iff_exists'.mp (by simpa using hne)
    have h10 : 10 ≤ h2 := by
      rcases hp with hp | ⟨hp, hr⟩
      · have := hst.le; omega
      · rcases hst with ⟨-, e⟩ | ⟨e, -⟩
        · exact absurd hr e
        · omega
    have hf := getPath_full g2.wf h10 (l := y) ((mem_order g2.wf).mp (by
      rw [hord, List.append_assoc]; exact List.mem_append_right _ (List.mem_of_head? hy)))
    simp only [update, c1, bind_ok, c2, n2, hy, Option.map_some, hf]
    rfl

/-- `update`: right on trees of at most 8 levels, and on all others unless it panics -/
theorem update_spec {m : Fill} (hm1 : 1 ≤ m.lo) (hm5 : m.lo + m.d ≤ 5) (hm : 2 ≤ m.lo ∨ LawE A) (L : DiffLaw A R) {ho : HashOrd E} (hho : ∀ l, (ho.idx l).Perm l)
    {f : σ → E → M (σ × E × Option D)} (hf : ClosureOK A R f) (st : σ) (g : Good A s lvl h) (sz : Sz m s h) (hsl : SplitLen B A.okE)
    (hpos : ∀ l x, elm s l = some x → 0 < B.rleLen x) {a b : Cursor} {ea eb : E} {Ua Va Ub Vb : List Nat}
    (ha : order s = Ua ++ a.leaf :: Va) (hea : elm s a.leaf = some ea) (hoa : a.offset ≤ B.rleLen ea)
    (hb : order s = Ub ++ b.leaf :: Vb) (heb : elm s b.leaf = some eb) (hob : b.offset ≤ B.rleLen eb)
    (hle : unitLen B (entriesOf s Ua) + a.offset ≤ unitLen B (entriesOf s Ub) + b.offset)
    (hh : h ≤ 8 ∨ update B ho f st s a b ≠ .error .panic) :
    ∃ st' s' lvl' h', update B ho f st s a b = .ok (st', List.range' (abs s).next ((abs s').next - (abs s).next), s') ∧
      (abs s).next ≤ (abs s').next ∧ Good A s' lvl' h' ∧ Sz m s' h' ∧ h' ≤ h + 1 ∧
      ∃ L R X n Y Y', specCut B (abs s) b = .ok (L, R, n) ∧ specCut B ⟨n, L ++ R⟩ a = .ok (X, Y ++ R, s'.lf.items.length) ∧
        runOn f st Y = .ok (st', Y') ∧ entries s' = X ++ Y'.filter (fun x => !B.canRemove x.2) ++ R :=
  update_spec_at hm1 hm5 hm L hho hf st g sz hsl ha hea hoa hb heb hob (notBehind_of_pos g.wf hpos ha hb heb hob hle) hh

/-- when `update` panics -/
theorem update_panics {m : Fill} (hm1 : 1 ≤ m.lo) (hm5 : m.lo + m.d ≤ 5) (hm : 2 ≤ m.lo ∨ LawE A) (L : DiffLaw A R) {ho : HashOrd E} (hho : ∀ l, (ho.idx l).Perm l)
    {f : σ → E → M (σ × E × Option D)} (hf : ClosureOK A R f) (st : σ) (g : Good A s lvl h) (sz : Sz m s h) (hsl : SplitLen B A.okE)
    (hpos : ∀ l x, elm s l = some x → 0 < B.rleLen x) {a b : Cursor} {ea eb : E} {Ua Va Ub Vb : List Nat}
    (ha : order s = Ua ++ a.leaf :: Va) (hea : elm s a.leaf = some ea) (hoa : a.offset ≤ B.rleLen ea)
    (hb : order s = Ub ++ b.leaf :: Vb) (heb : elm s b.leaf = some eb) (hob : b.offset ≤ B.rleLen eb)
    (hle : unitLen B (entriesOf s Ua) + a.offset ≤ unitLen B (entriesOf s Ub) + b.offset)
    (hend : unitLen B (entriesOf s Ua) + a.offset < unitLen B (entries s)) :
    update B ho f st s a b = .error .panic ↔ 10 ≤ h ∨ h = 9 ∧ CutsRaise B s a b :=
  update_panics_at hm1 hm5 hm L hho hf st g sz hsl ha hea hoa hb heb hob (notBehind_of_pos g.wf hpos ha hb heb hob hle) (start_before_end ha hea hend)

end GB

import Verif.Spec.Rounds
import Verif.Model.LazyIter
import Verif.Proof.Push
import Verif.Model.Ops
import Verif.Proof.Query
import Verif.Proof.CheckSound

/-!
Loops with a larger allowance: a loop that has ended is not changed by it.
-/

namespace GB

variable {α β E C D Q F : Type}

/-- `b` is `a`, unless the allowance of `a` ran out. -/
def FLe (a b : M α) : Prop := a = .error .fuel ∨ a = b

theorem FLe.refl (a : M α) : FLe a a := Or.inr rfl

theorem FLe.bind {a b : M α} {f g : α → M β} (h : FLe a b) (hf : ∀ x, FLe (f x) (g x)) : FLe (a >>= f) (b >>= g) := by
  rcases h with h | h
  · left; rw [h]; rfl
  · subst h
    cases a with
    | error e => exact Or.inr rfl
    | ok x => exact hf x

theorem FLe.bind_same {a : M α} {f g : α → M β} (hf : ∀ x, FLe (f x) (g x)) : FLe (a >>= f) (a >>= g) := (FLe.refl a).bind hf

theorem endsWithin_of_mono {f : Nat → M α} {k : Nat} (hm : ∀ n, FLe (f n) (f (n + 1))) (hk : f k ≠ .error .fuel) : EndsWithin f k := by
  refine ⟨hk, fun n hn => ?_⟩
  induction n with
  | zero => rw [Nat.le_zero.mp hn]
  | succ n ih =>
    rcases Nat.lt_or_ge n k with h | h
    · rw [show k = n + 1 by omega]
    · have h1 := ih h
      rcases hm n with h2 | h2
      · exact absurd (h1.symm.trans h2) hk
      · rw [← h2, h1]

theorem EndsWithin.mono {f : Nat → M α} {k m : Nat} (h : EndsWithin f k) (hkm : k ≤ m) : EndsWithin f m :=
  ⟨by rw [h.2 m hkm]; exact h.1, fun n hn => by rw [h.2 n (Nat.le_trans hkm hn), h.2 m hkm]⟩

section
variable (s : Tree E C) (B : Trait E C D)

theorem firstLeafF_mono : ∀ n (x : Nat), FLe (firstLeafF n s x) (firstLeafF (n + 1) s x) := by
  intro n
  induction n with
  | zero => intro x; exact Or.inl rfl
  | succ n ih =>
    intro x
    rw [firstLeafF, firstLeafF.eq_def (n + 1 + 1)]
    refine FLe.bind_same fun N => ?_
    cases N.children.head? with
    | none => exact .refl _
    | some c => cases hc : c.arena with
      | leaf l => simp only [hc]; exact .refl _
      | internal y => simp only [hc]; exact ih y

theorem lastLeafF_mono : ∀ n (x : Nat), FLe (lastLeafF n s x) (lastLeafF (n + 1) s x) := by
  intro n
  induction n with
  | zero => intro x; exact Or.inl rfl
  | succ n ih =>
    intro x
    rw [lastLeafF, lastLeafF.eq_def (n + 1 + 1)]
    refine FLe.bind_same fun N => ?_
    cases N.children.getLast? with
    | none => exact .refl _
    | some c => cases hc : c.arena with
      | leaf l => simp only [hc]; exact .refl _
      | internal y => simp only [hc]; exact ih y

theorem depthF_mono : ∀ n (x d : Nat), FLe (depthF n s x d) (depthF (n + 1) s x d) := by
  intro n
  induction n with
  | zero => intro x d; exact Or.inl rfl
  | succ n ih =>
    intro x d
    rw [depthF, depthF.eq_def (n + 1 + 1)]
    refine FLe.bind_same fun N => FLe.bind_same fun c => ?_
    cases hc : c.arena with
    | leaf l => simp only [hc]; exact .refl _
    | internal y => simp only [hc]; exact ih y _

theorem queryF_mono (q : Query E C Q F) (arg : Q) : ∀ n (x : Nat) (fd : F) (b : Bool),
    FLe (queryF q arg n s x fd b) (queryF q arg (n + 1) s x fd b) := by
  intro n
  induction n with
  | zero => intro x fd b; exact Or.inl rfl
  | succ n ih =>
    intro x fd b
    rw [queryF, queryF.eq_def q arg (n + 1 + 1)]
    refine FLe.bind_same fun N => FLe.bind_same fun r => FLe.bind_same fun _ => FLe.bind_same fun c => ?_
    cases hc : c.arena with
    | leaf l => simp only [hc]; exact .refl _
    | internal y => simp only [hc]; exact ih y _ _

theorem nextSameLevelIn_mono : ∀ n (x : Nat), FLe (nextSameLevelIn n s x) (nextSameLevelIn (n + 1) s x) := by
  intro n
  induction n with
  | zero => intro x; exact Or.inl rfl
  | succ n ih =>
    intro x
    rw [nextSameLevelIn, nextSameLevelIn.eq_def (n + 1 + 1)]
    refine FLe.bind_same fun N => ?_
    cases N.parent with
    | none => exact .refl _
    | some p =>
      refine FLe.bind_same fun P => ?_
      cases P.children[N.slot + 1]? with
      | some c => exact .refl _
      | none => exact (ih p).bind fun r => .refl _

theorem prevSameLevelIn_mono : ∀ n (x : Nat), FLe (prevSameLevelIn n s x) (prevSameLevelIn (n + 1) s x) := by
  intro n
  induction n with
  | zero => intro x; exact Or.inl rfl
  | succ n ih =>
    intro x
    rw [prevSameLevelIn, prevSameLevelIn.eq_def (n + 1 + 1)]
    refine FLe.bind_same fun N => ?_
    cases N.parent with
    | none => exact .refl _
    | some p =>
      refine FLe.bind_same fun P => ?_
      split
      · exact .refl _
      · exact (ih p).bind fun r => .refl _

theorem cmpClimb_mono : ∀ n (a b : Node C), FLe (cmpClimb n s a b) (cmpClimb (n + 1) s a b) := by
  intro n
  induction n with
  | zero => intro a b; exact Or.inl rfl
  | succ n ih =>
    intro a b
    rw [cmpClimb, cmpClimb.eq_def (n + 1 + 1)]
    dsimp only
    split
    · exact FLe.bind_same fun _ => FLe.bind_same fun _ => FLe.bind_same fun _ => FLe.bind_same fun _ => ih _ _
    · exact .refl _

theorem getPathF_mono : ∀ n (x : Nat) (acc : List PIdx), FLe (getPathF n s x acc) (getPathF (n + 1) s x acc) := by
  intro n
  induction n with
  | zero => intro x acc; exact Or.inl rfl
  | succ n ih =>
    intro x acc
    rw [getPathF, getPathF.eq_def (n + 1 + 1)]
    dsimp only
    split
    · exact .refl _
    · exact FLe.bind_same fun _ => FLe.bind_same fun _ => FLe.bind_same fun _ => ih _ _

theorem levelF_mono : ∀ n (x len : Nat), FLe (levelF n s x len) (levelF (n + 1) s x len) := by
  intro n
  induction n with
  | zero => intro x acc; exact Or.inl rfl
  | succ n ih =>
    intro x acc
    rw [levelF, levelF.eq_def (n + 1 + 1)]
    dsimp only
    split
    · exact .refl _
    · exact FLe.bind_same fun _ => FLe.bind_same fun _ => ih _ _

theorem firstPathF_mono : ∀ n (a : Idx) (acc : List PIdx), FLe (firstPathF n s a acc) (firstPathF (n + 1) s a acc) := by
  intro n
  induction n with
  | zero => intro x acc; exact Or.inl rfl
  | succ n ih =>
    intro a acc
    rw [firstPathF, firstPathF.eq_def (n + 1 + 1)]
    refine FLe.bind_same fun r => ?_
    cases a with
    | leaf l => exact .refl _
    | internal x => exact FLe.bind_same fun _ => FLe.bind_same fun _ => ih _ _

theorem lastPathF_mono : ∀ n (a : Idx) (i : Nat) (acc : List PIdx), FLe (lastPathF n s a i acc) (lastPathF (n + 1) s a i acc) := by
  intro n
  induction n with
  | zero => intro x i acc; exact Or.inl rfl
  | succ n ih =>
    intro a i acc
    rw [lastPathF, lastPathF.eq_def (n + 1 + 1)]
    refine FLe.bind_same fun r => ?_
    cases a with
    | leaf l => exact .refl _
    | internal x => exact FLe.bind_same fun _ => FLe.bind_same fun _ => ih _ _ _

end

section
variable (B : Trait E C D)

theorem recUpdDiff_mono : ∀ n (s : Tree E C) (x : Nat) (d : D), FLe (recUpdDiff B n s x d) (recUpdDiff B (n + 1) s x d) := by
  intro n
  induction n with
  | zero => intro s x d; exact Or.inl rfl
  | succ n ih =>
    intro s x d
    rw [recUpdDiff, recUpdDiff.eq_def B (n + 1 + 1)]
    refine FLe.bind_same fun N => ?_
    cases N.parent with
    | none => exact .refl _
    | some p => exact FLe.bind_same fun _ => FLe.bind_same fun _ => FLe.bind_same fun _ => ih _ _ _

theorem recUpdCalc_mono : ∀ n (s : Tree E C) (x : Nat), FLe (recUpdCalc B n s x) (recUpdCalc B (n + 1) s x) := by
  intro n
  induction n with
  | zero => intro s x; exact Or.inl rfl
  | succ n ih =>
    intro s x
    rw [recUpdCalc, recUpdCalc.eq_def B (n + 1 + 1)]
    refine FLe.bind_same fun N => ?_
    cases N.parent with
    | none => exact .refl _
    | some p => exact FLe.bind_same fun _ => FLe.bind_same fun _ => FLe.bind_same fun _ => FLe.bind_same fun _ => ih _ _

theorem splitF_mono : ∀ n (s : Tree E C) (x : Nat), FLe (splitF B n s x) (splitF B (n + 1) s x) := by
  intro n
  induction n with
  | zero => intro s x; exact Or.inl rfl
  | succ n ih =>
    intro s x
    rw [splitF, splitF.eq_def B (n + 1 + 1)]
    refine FLe.bind_same fun r => ?_
    obtain ⟨⟨par, slot, tc, rc⟩, s1⟩ := r
    cases par with
    | none => exact .refl _
    | some p =>
      refine FLe.bind_same fun _ => FLe.bind_same fun _ => FLe.bind_same fun _ => FLe.bind_same fun _ => ?_
      split
      · exact ih _ _
      · exact .refl _

theorem reduceLoop_mono : ∀ n (s : Tree E C) (b : Bool), FLe (reduceLoop n s b) (reduceLoop (n + 1) s b) := by
  intro n
  induction n with
  | zero => intro s x; exact Or.inl rfl
  | succ n ih =>
    intro s b
    rw [reduceLoop, reduceLoop.eq_def (n + 1 + 1)]
    refine FLe.bind_same fun R => ?_
    match R.children with
    | [] => exact .refl _
    | [c] =>
      cases hc : c.arena with
      | leaf l => simp only [hc]; exact .refl _
      | internal y => simp only [hc]; exact FLe.bind_same fun _ => FLe.bind_same fun _ => ih _ _
    | _ :: _ :: _ => exact .refl _

theorem handleLackF_mono : ∀ n (s : Tree E C) (x : Nat), FLe (handleLackF B n s x) (handleLackF B (n + 1) s x) := by
  intro n
  induction n with
  | zero => intro s x; exact Or.inl rfl
  | succ n ih =>
    intro s x
    rw [handleLackF, handleLackF.eq_def B (n + 1 + 1)]
    refine FLe.bind_same fun r => ?_
    obtain ⟨p, s1⟩ := r
    cases p with
    | none => exact .refl _
    | some p => exact ih _ _

theorem removeInternalF_mono : ∀ n (s : Tree E C) (x : Nat), FLe (removeInternalF B n s x) (removeInternalF B (n + 1) s x) := by
  intro n
  induction n with
  | zero => intro s x; exact Or.inl rfl
  | succ n ih =>
    intro s x
    rw [removeInternalF, removeInternalF.eq_def B (n + 1 + 1)]
    dsimp only
    split
    · exact .refl _
    · refine FLe.bind_same fun N => FLe.bind_same fun p => FLe.bind_same fun P => FLe.bind_same fun r => FLe.bind_same fun s1 => ?_
      split
      · exact ih _ _
      · exact .refl _

end

end GB

namespace GB

variable {α β E C D Q F : Type}

/-! ## Loops that do not run out of their allowance -/

theorem nf_bind {a : M α} {f : α → M β} (h : a ≠ .error .fuel) (hf : ∀ x, a = .ok x → f x ≠ .error .fuel) : (a >>= f) ≠ .error .fuel := by
  cases a with
  | error e => intro h'; cases h'; exact h rfl
  | ok x => exact hf x rfl

theorem nf_ok (a : α) : (.ok a : M α) ≠ .error .fuel := fun h => by cases h
theorem nf_panic : (.error .panic : M α) ≠ .error .fuel := fun h => by cases h

theorem nf_unwrap (o : Option α) : unwrap o ≠ .error .fuel := by
  cases o with
  | none => exact nf_panic
  | some a => exact nf_ok a

theorem nf_vget (l : List α) (i : Nat) : vget l i ≠ .error .fuel := by
  rw [vget]; exact nf_unwrap _

theorem nf_getIn (s : Tree E C) (x : Nat) : s.getIn x ≠ .error .fuel := by
  rw [Tree.getIn]; exact nf_unwrap _

theorem nf_getLf (s : Tree E C) (x : Nat) : s.getLf x ≠ .error .fuel := by
  rw [Tree.getLf]; exact nf_unwrap _

theorem nf_assertM (b : Bool) : assertM b ≠ .error .fuel := by
  cases b with
  | true => exact nf_ok _
  | false => exact nf_panic

section
variable {s : Tree E C} {lvl : Nat → Nat} {h : Nat}

/-- an inner child is one level below its node -/
theorem kid_lvl (w : WF s lvl h) {x y : Nat} {N : Node C} {c : Child C} (hN : s.inn.get x = some N) (hc : c ∈ N.children)
    (ha : c.arena = .internal y) : lvl x = lvl y + 1 ∧ lnk s y ≠ none := by
  obtain ⟨i, hi⟩ := List.mem_iff_getElem?.mp hc
  have he : Edge s x i (.internal y) := edge_chs.mpr ⟨c, by rw [chs_of hN]; exact hi, ha⟩
  obtain ⟨h1, M, h2, -⟩ := w.kid_in x i y he
  exact ⟨h1, lnk_isSome.mpr ⟨M, h2⟩⟩

theorem queryF_nf (w : WF s lvl h) (q : Query E C Q F) (arg : Q) (hf : ∀ fd cs, q.findNode fd arg cs ≠ .error .fuel)
    (hc : ∀ fd e, q.confirm fd arg e ≠ .error .fuel) : ∀ (n x : Nat) (fd : F) (b : Bool), lnk s x ≠ none → lvl x ≤ n →
    queryF q arg n s x fd b ≠ .error .fuel := by
  intro n
  induction n with
  | zero => intro x fd b hx hn; have := (w.lvl_pos' hx).1; omega
  | succ n ih =>
    intro x fd b hx hn
    rw [queryF]
    refine nf_bind (nf_getIn s x) fun N hN => nf_bind (hf _ _) fun r hr => nf_bind (nf_assertM _) fun _ _ => nf_bind (nf_vget _ _) fun c hc' => ?_
    cases ha : c.arena with
    | internal y =>
      have := kid_lvl w (getIn_inv hN) (List.mem_iff_getElem?.mpr ⟨_, vget_inv hc'⟩) ha
      exact ih y _ _ this.2 (by omega)
    | leaf l =>
      refine nf_bind (nf_getLf s l) fun L _ => nf_bind (hc _ _) fun r _ => nf_ok _

theorem parent_lvl (w : WF s lvl h) {x p : Nat} {N : Node C} (hN : s.inn.get x = some N) (hp : N.parent = some p) :
    lvl p = lvl x + 1 ∧ lnk s p ≠ none := by
  obtain ⟨-, he, hl⟩ := w.parent_some hN hp
  exact ⟨hl, edge_live he⟩

theorem getPathF_nf (w : WF s lvl h) : ∀ (n x : Nat) (acc : List PIdx), lnk s x ≠ none → h - lvl x < n →
    getPathF n s x acc ≠ .error .fuel := by
  intro n
  induction n with
  | zero => intro x acc _ hn; omega
  | succ n ih =>
    intro x acc hx hn
    have nfp : ∀ acc i, pathPushTop acc i ≠ .error .fuel := by
      intro acc i
      rw [pathPushTop]
      split
      · exact nf_ok _
      · exact nf_panic
    rw [getPathF]
    split
    · exact nfp _ _
    · refine nf_bind (nf_getIn s x) fun N hN => nf_bind (nfp _ _) fun _ _ => nf_bind (nf_unwrap _) fun p hp => ?_
      have hp' : N.parent = some p := by
        cases hq : N.parent with
        | none => rw [hq] at hp; cases hp
        | some q => rw [hq] at hp; cases hp; rfl
      have := parent_lvl w (getIn_inv hN) hp'
      have := (w.lvl_pos' this.2).2
      exact ih p _ (parent_lvl w (getIn_inv hN) hp').2 (by omega)

theorem cmpClimb_nf (w : WF s lvl h) : ∀ (n x y : Nat) (X Y : Node C), s.inn.get x = some X → s.inn.get y = some Y → h - lvl x < n →
    cmpClimb n s X Y ≠ .error .fuel := by
  intro n
  induction n with
  | zero => intro x y X Y _ _ hn; omega
  | succ n ih =>
    intro x y X Y hX hY hn
    rw [cmpClimb]
    split
    · refine nf_bind (nf_unwrap _) fun pa hpa => nf_bind (nf_getIn s pa) fun A hA => nf_bind (nf_unwrap _) fun pb hpb =>
        nf_bind (nf_getIn s pb) fun B hB => ?_
      have hpa' : X.parent = some pa := by
        cases hq : X.parent with
        | none => rw [hq] at hpa; cases hpa
        | some q => rw [hq] at hpa; cases hpa; rfl
      have h1 := parent_lvl w hX hpa'
      have h2 := (w.lvl_pos' h1.2).2
      exact ih pa pb A B (getIn_inv hA) (getIn_inv hB) (by omega)
    · exact nf_ok _

theorem nf_pathPush (acc : List PIdx) (i : PIdx) : pathPush acc i ≠ .error .fuel := by
  rw [pathPush]
  split
  · exact nf_ok _
  · exact nf_panic

theorem firstPathF_nf (w : WF s lvl h) : ∀ (n x : Nat) (acc : List PIdx), lnk s x ≠ none → lvl x < n →
    firstPathF n s (.internal x) acc ≠ .error .fuel := by
  intro n
  induction n with
  | zero => intro x acc _ hn; omega
  | succ n ih =>
    intro x acc hx hn
    rw [firstPathF]
    refine nf_bind (nf_pathPush _ _) fun _ _ => nf_bind (nf_getIn s x) fun N hN => nf_bind (nf_vget _ _) fun c hc => ?_
    cases ha : c.arena with
    | internal y =>
      have := kid_lvl w (getIn_inv hN) (List.mem_iff_getElem?.mpr ⟨_, vget_inv hc⟩) ha
      exact ih y _ this.2 (by omega)
    | leaf l =>
      cases n with
      | zero => have := (w.lvl_pos' hx).1; omega
      | succ n => exact nf_bind (nf_pathPush _ _) fun _ _ => nf_ok _

theorem lastPathF_nf (w : WF s lvl h) : ∀ (n x i : Nat) (acc : List PIdx), lnk s x ≠ none → lvl x < n →
    lastPathF n s (.internal x) i acc ≠ .error .fuel := by
  intro n
  induction n with
  | zero => intro x i acc _ hn; omega
  | succ n ih =>
    intro x i acc hx hn
    rw [lastPathF]
    refine nf_bind (nf_pathPush _ _) fun _ _ => nf_bind (nf_getIn s x) fun N hN => nf_bind (nf_vget _ _) fun c hc => ?_
    cases ha : c.arena with
    | internal y =>
      have := kid_lvl w (getIn_inv hN) (List.mem_iff_getElem?.mpr ⟨_, vget_inv hc⟩) ha
      exact ih y _ _ this.2 (by omega)
    | leaf l =>
      cases n with
      | zero => have := (w.lvl_pos' hx).1; omega
      | succ n => exact nf_bind (nf_pathPush _ _) fun _ _ => nf_ok _

end

section
variable (B : Trait E C D) {lvl : Nat → Nat} {h : Nat}

theorem recUpdDiff_nf (ha : ∀ c d, B.apply c d ≠ .error .fuel) : ∀ (n : Nat) (s : Tree E C) (x : Nat) (d : D), WF s lvl h → lnk s x ≠ none →
    h - lvl x < n → recUpdDiff B n s x d ≠ .error .fuel := by
  intro n
  induction n with
  | zero => intro s x d _ _ hn; omega
  | succ n ih =>
    intro s x d w hx hn
    rw [recUpdDiff]
    refine nf_bind (nf_getIn s x) fun N hN => ?_
    cases hp : N.parent with
    | none => exact nf_bind (ha _ _) fun _ _ => nf_ok _
    | some p =>
      have h1 := parent_lvl w (getIn_inv hN) hp
      have h2 := (w.lvl_pos' h1.2).2
      refine nf_bind (nf_getIn s p) fun P hP => nf_bind (nf_vget _ _) fun ch hch => nf_bind (ha _ _) fun c' _ => ?_
      have sh : SameShape s _ := setEntry_shape (c' := c') (getIn_inv hP) (vget_inv hch)
      exact ih _ p d (sh.wf w) (by
        obtain ⟨P', hP', -⟩ := sh.get (getIn_inv hP)
        exact lnk_isSome.mpr ⟨P', hP'⟩) (by omega)

theorem recUpdCalc_nf (hc : ∀ c l, B.calcC c l ≠ .error .fuel) : ∀ (n : Nat) (s : Tree E C) (x : Nat), WF s lvl h → lnk s x ≠ none →
    h - lvl x < n → recUpdCalc B n s x ≠ .error .fuel := by
  have hcc : ∀ (N : Node C) c, calcCache B N c none ≠ .error .fuel := fun N c => hc _ _
  intro n
  induction n with
  | zero => intro s x _ _ hn; omega
  | succ n ih =>
    intro s x w hx hn
    rw [recUpdCalc]
    refine nf_bind (nf_getIn s x) fun N hN => ?_
    cases hp : N.parent with
    | none => exact nf_bind (nf_getIn _ _) fun _ _ => nf_bind (hcc _ _) fun _ _ => nf_ok _
    | some p =>
      have h1 := parent_lvl w (getIn_inv hN) hp
      have h2 := (w.lvl_pos' h1.2).2
      refine nf_bind (nf_assertM _) fun _ _ => nf_bind (nf_getIn s p) fun P hP => nf_bind (nf_vget _ _) fun ch hch => nf_bind (hcc _ _) fun c' _ => ?_
      have sh : SameShape s _ := setEntry_shape (c' := c'.1) (getIn_inv hP) (vget_inv hch)
      exact ih _ p (sh.wf w) (by
        obtain ⟨P', hP', -⟩ := sh.get (getIn_inv hP)
        exact lnk_isSome.mpr ⟨P', hP'⟩) (by omega)

end

/-! ## Iteration -/

theorem nf_unwrapInternal (a : Idx) : a.unwrapInternal ≠ .error .fuel := by
  cases a <;> intro h <;> cases h

theorem nf_unwrapLeaf (a : Idx) : a.unwrapLeaf ≠ .error .fuel := by
  cases a <;> intro h <;> cases h

theorem nf_nextSibling (s : Tree E C) : ∀ p, nextSibling s p ≠ .error .fuel
  | [] => nf_ok _
  | [_] => nf_ok _
  | this :: parent :: rest => by
    rw [nextSibling]
    refine nf_bind (nf_bind (nf_unwrapInternal _) fun _ _ => nf_getIn _ _) fun par _ => ?_
    split
    · exact nf_ok _
    · refine nf_bind (nf_nextSibling s (parent :: rest)) fun r _ => ?_
      split
      · exact nf_ok _
      · exact nf_panic
      · exact nf_bind (nf_bind (nf_unwrapInternal _) fun _ _ => nf_getIn _ _) fun _ _ => nf_bind (nf_vget _ _) fun _ _ => nf_ok _

/-- A round of `next` that finds a child ends. -/
theorem elemNextF_child (s : Tree E C) (n : Nat) (p : List PIdx) (c : Child C) (cs : List (Child C)) :
    elemNextF s (n + 1) ⟨p, c :: cs⟩ ≠ .error .fuel ∧ elemNextF s (n + 1) ⟨p, c :: cs⟩ = elemNextF s 1 ⟨p, c :: cs⟩ := by
  have key : ∀ k, elemNextF s (k + 1) ⟨p, c :: cs⟩ = if p = [] then .ok (none, ⟨p, c :: cs⟩) else (do
      let l ← c.arena.unwrapLeaf
      let leaf ← s.getLf l
      pure (some leaf.elem, ⟨p, cs⟩)) := fun k => by rw [elemNextF]
  refine ⟨?_, by rw [key n, key 0]⟩
  rw [key n]
  split
  · exact nf_ok _
  · exact nf_bind (nf_unwrapLeaf _) fun _ _ => nf_bind (nf_getLf _ _) fun _ _ => nf_ok _

theorem elemNextF_two (s : Tree E C) (hc : ∀ x N, s.inn.get x = some N → N.children ≠ []) (it : ElemIter C) (n : Nat) :
    elemNextF s (n + 2) it ≠ .error .fuel ∧ elemNextF s (n + 2) it = elemNextF s 2 it := by
  obtain ⟨p, rest⟩ := it
  cases rest with
  | cons c cs =>
    obtain ⟨h1, h2⟩ := elemNextF_child s (n + 1) p c cs
    exact ⟨h1, h2.trans (elemNextF_child s 1 p c cs).2.symm⟩
  | nil =>
    rw [elemNextF, elemNextF]
    simp only
    split
    · exact ⟨nf_ok _, rfl⟩
    · cases hs : nextSibling s p with
      | error x => exact ⟨fun h => nf_nextSibling s p (hs.trans (by injection h with h; rw [h])), rfl⟩
      | ok r =>
        cases r with
        | none => exact ⟨nf_ok _, rfl⟩
        | some p' =>
          simp only [bind_ok]
          cases hu : unwrap p'.head? with
          | error x => exact ⟨fun h => nf_unwrap _ (hu.trans (by injection h with h; rw [h])), rfl⟩
          | ok idx =>
            simp only [bind_ok]
            cases hg : s.getInIdx idx.arena with
            | error x => exact ⟨fun h => nf_bind (nf_unwrapInternal idx.arena) (fun _ _ => nf_getIn s _) (hg.trans (by injection h with h; rw [h])), rfl⟩
            | ok N =>
              simp only [bind_ok]
              have hN : N.children ≠ [] := by
                obtain ⟨x, -, h⟩ := bind_inv (show (idx.arena.unwrapInternal >>= fun x => s.getIn x) = .ok N from hg)
                exact hc x N (getIn_inv h)
              cases hl : N.children with
              | nil => exact absurd hl hN
              | cons c cs => exact elemNextF_child s n p' c cs

end GB

import Verif.Proof.Order

/-!
# The contract of the trait callbacks

`Law B` is what the tree needs from the callbacks (`BTreeTrait` and the element traits).  It is proved
for the instances of the crate in `Proof/Instances.lean`.
-/

namespace GB
variable {E C D : Type}
open Tree

/-- Contract of the callbacks of `B`. -/
structure Law (B : Trait E C D) where
  /-- the combination of a list of caches -/
  total : List C → C
  /-- caches that may be stored in a child entry -/
  okC : C → Prop
  /-- well-formed elements -/
  okE : E → Prop
  /-- `IsDiff c d c'`: the diff `d` leads from `c` to `c'` -/
  IsDiff : C → D → C → Prop
  /-- admissible root caches of an empty tree -/
  emptyOk : C → Prop
  calc_ok : ∀ c0 cs, cs ≠ [] → (∀ c ∈ cs, okC c) →
    ∃ d, B.calcC c0 cs = .ok (total cs, d) ∧ (B.useDiff = true → IsDiff c0 d (total cs))
  calc_empty : ∀ c0, ∃ c d, B.calcC c0 [] = .ok (c, d) ∧ emptyOk c
  dflt_empty : emptyOk B.dflt
  total_ok : ∀ cs, cs ≠ [] → (∀ c ∈ cs, okC c) → okC (total cs)
  total_flat : ∀ l m r, m ≠ [] → total (l ++ total m :: r) = total (l ++ m ++ r)
  total_single : ∀ c, okC c → total [c] = c
  elem_ok : ∀ e, okE e → okC (B.elemCache e)
  diff_apply : B.useDiff = true → ∀ c d c', IsDiff c d c' → B.apply c d = .ok c'
  diff_ctx : B.useDiff = true → ∀ l r c d c', IsDiff c d c' →
    IsDiff (total (l ++ c :: r)) d (total (l ++ c' :: r))
  diff_ins : B.useDiff = true → ∀ l r c, l ++ r ≠ [] →
    IsDiff (total (l ++ r)) (B.newCacheToDiff c) (total (l ++ c :: r))
  diff_empty : B.useDiff = true → ∀ c0 c, emptyOk c0 → IsDiff c0 (B.newCacheToDiff c) (total [c])
  merge_right : ∀ a b, okE a → okE b → B.canMerge a b = true → ∃ e, B.mergeRight a b = .ok e ∧ okE e ∧
    B.elemCache e = total [B.elemCache a, B.elemCache b]
  merge_left : ∀ a b, okE a → okE b → B.canMerge a b = true → ∃ e, B.mergeLeft b a = .ok e ∧ okE e ∧
    B.elemCache e = total [B.elemCache a, B.elemCache b]
  split : ∀ e i, okE e → 0 < i → i < B.rleLen e → ∃ a b, B.split e i = .ok (a, b) ∧ okE a ∧ okE b ∧
    total [B.elemCache a, B.elemCache b] = B.elemCache e
  tryInsert : ∀ e i d, okE e → okE d → i ≤ B.rleLen e →
    (∃ e', B.tryInsert e i d = .ok (.inl e') ∧ okE e' ∧
      (B.useDiff = true → IsDiff (B.elemCache e) (B.newCacheToDiff (B.elemCache d)) (B.elemCache e'))) ∨
    B.tryInsert e i d = .ok (.inr d)

/-- Additional contract used when an internal node loses its last child while still linked: the
combination of no caches is neutral.  (Not satisfied by the ordered map, whose nodes never become
empty.) -/
structure LawE {B : Trait E C D} (A : Law B) : Prop where
  ok_nil : A.okC (A.total [])
  empty_nil : A.emptyOk (A.total [])
  calc_nil : ∀ c0, ∃ d, B.calcC c0 [] = .ok (A.total [], d) ∧ (B.useDiff = true → A.IsDiff c0 d (A.total []))
  total_nil : ∀ l r, A.total (l ++ A.total [] :: r) = A.total (l ++ r)

variable {B : Trait E C D}

/-- the caches stored in the child entries of a node -/
def cch (s : Tree E C) (x : Nat) : List C := (chs s x).map Child.cache

/-- a child entry holds the right cache -/
def EntryOK (A : Law B) (s : Tree E C) (c : Child C) : Prop :=
  match c.arena with
  | .leaf l => ∀ e, elm s l = some e → c.cache = B.elemCache e
  | .internal y => c.cache = A.total (cch s y)

/-- all child entries except those for indices in `X` hold the right cache -/
def CInv (A : Law B) (s : Tree E C) (X : Idx → Prop) : Prop :=
  ∀ p c, c ∈ chs s p → ¬ X c.arena → EntryOK A s c

/-- all stored caches are admissible -/
def COk (A : Law B) (s : Tree E C) : Prop := ∀ p c, c ∈ chs s p → A.okC c.cache

/-- the root cache is right -/
def RootOK (A : Law B) (s : Tree E C) : Prop :=
  (chs s s.root ≠ [] → s.rootCache = A.total (cch s s.root)) ∧
  (chs s s.root = [] → A.emptyOk s.rootCache)

/-- no exception -/
abbrev noX : Idx → Prop := fun _ => False

theorem CInv.mono {A : Law B} {s : Tree E C} {X Y : Idx → Prop} (h : CInv A s X) (hs : ∀ a, X a → Y a) :
    CInv A s Y := fun p c hc hy => h p c hc (fun hx => hy (hs _ hx))

/-- `y` is `x` or an ancestor of `x` -/
inductive Anc (s : Tree E C) : Nat → Nat → Prop
  | refl (x : Nat) : Anc s x x
  | step {x p i y : Nat} : Edge s p i (.internal x) → Anc s p y → Anc s x y

theorem SameShape.anc {s s' : Tree E C} (h : SameShape s s') {x y : Nat} (ha : Anc s x y) : Anc s' x y := by
  induction ha with
  | refl x => exact .refl x
  | step he _ ih => exact .step (h.edge.mpr he) ih

/-! ## Writing one cache entry -/

section entry
variable {A : Law B} {s : Tree E C} {lvl : Nat → Nat} {h : Nat}

/-- the state after overwriting the cache of the `i`-th child entry of `p` -/
def setEntry (s : Tree E C) (p : Nat) (N : Node C) (i : Nat) (ch : Child C) (c' : C) : Tree E C :=
  s.setIn p { N with children := N.children.set i { ch with cache := c' } }

variable {p i : Nat} {N : Node C} {ch : Child C} {c' : C}

theorem setEntry_shape (hN : s.inn.get p = some N) (hi : N.children[i]? = some ch) :
    SameShape s (setEntry s p N i ch c') := by
  apply SameShape.setIn hN
  simp only [Node.shape, Prod.mk.injEq, true_and]
  rw [List.map_set]
  apply List.ext_getElem?
  intro j
  rw [List.getElem?_set]
  split
  · next e =>
    subst e
    rw [List.getElem?_map, hi]
    have := (List.getElem?_eq_some_iff.mp hi).1
    simp [this]
  · rfl

theorem chs_setEntry (hN : s.inn.get p = some N) (y : Nat) :
    chs (setEntry s p N i ch c') y = if y = p then N.children.set i { ch with cache := c' } else chs s y := by
  unfold setEntry
  rw [chs_setIn s (lnk_isSome.mpr ⟨N, hN⟩)]

theorem setEntry_cinv {X : Idx → Prop} (hN : s.inn.get p = some N) (hi : N.children[i]? = some ch)
    (huniq : ∀ q j, Edge s q j ch.arena → q = p ∧ j = i)
    (cinv : CInv A s X) (hc : EntryOK A s { ch with cache := c' }) :
    CInv A (setEntry s p N i ch c') (fun a => (X a ∧ a ≠ ch.arena) ∨ a = .internal p) := by
  intro q c hc' hX
  have hX1 : c.arena ≠ .internal p := fun e => hX (Or.inr e)
  have hX2 : X c.arena → c.arena = ch.arena := fun hx => by
    apply Decidable.byContradiction
    intro hn
    exact hX (Or.inl ⟨hx, hn⟩)
  have key : ∀ c2 : Child C, c2.arena ≠ .internal p → EntryOK A s c2 →
      EntryOK A (setEntry s p N i ch c') c2 := by
    intro c2 hn ho
    unfold EntryOK at *
    cases ha : c2.arena with
    | leaf l => rw [ha] at ho; exact ho
    | internal y =>
      rw [ha] at ho hn
      have hy : y ≠ p := fun e => hn (by rw [e])
      simp only [cch, chs_setEntry hN, if_neg hy]
      exact ho
  apply key c hX1
  rw [chs_setEntry hN] at hc'
  split at hc'
  · next e =>
    subst e
    obtain ⟨j, hj⟩ := List.mem_iff_getElem?.mp hc'
    rw [List.getElem?_set] at hj
    split at hj
    · next e =>
      split at hj
      · cases hj
        exact hc
      · cases hj
    · next hij =>
      have hmem : c ∈ chs s q := by rw [chs_of hN]; exact List.mem_iff_getElem?.mpr ⟨j, hj⟩
      by_cases hx : X c.arena
      · -- same arena as the overwritten entry: its cache need not be right, but `X` covers it
        exfalso
        exact hij (huniq q j (edge_chs.mpr ⟨c, by rw [chs_of hN]; exact hj, hX2 hx⟩)).2.symm
      · exact cinv q c hmem hx
  · next hq =>
    by_cases hx : X c.arena
    · exfalso
      obtain ⟨j, hj⟩ := List.mem_iff_getElem?.mp hc'
      exact hq (huniq q j (edge_chs.mpr ⟨c, hj, hX2 hx⟩)).1
    · exact cinv q c hc' hx

theorem setEntry_cok (hN : s.inn.get p = some N) (cok : COk A s) (hc : A.okC c') :
    COk A (setEntry s p N i ch c') := by
  intro q c hc'
  rw [chs_setEntry hN] at hc'
  split at hc'
  · rcases List.mem_or_eq_of_mem_set hc' with hm | hm
    · exact cok p c (by rw [chs_of hN]; exact hm)
    · rw [hm]; exact hc
  · exact cok q c hc'

theorem cch_setEntry_self (hN : s.inn.get p = some N) :
    cch (setEntry s p N i ch c') p = (cch s p).set i c' := by
  simp only [cch, chs_setEntry hN, if_pos, chs_of hN, List.map_set]

theorem cch_setEntry_ne (hN : s.inn.get p = some N) {y : Nat} (hy : y ≠ p) :
    cch (setEntry s p N i ch c') y = cch s y := by
  simp only [cch, chs_setEntry hN, if_neg hy]

end entry

/-! ## Recomputing caches along the root path -/

section climb
variable {A : Law B} {s : Tree E C} {lvl : Nat → Nat} {h : Nat}

theorem calcCache_ok {N : Node C} (hne : N.children ≠ [] ∨ LawE A)
    (cok : ∀ c ∈ N.children, A.okC c.cache) (c0 : C) :
    ∃ d, calcCache B N c0 none = .ok (A.total (N.children.map Child.cache), d) ∧
      (B.useDiff = true → A.IsDiff c0 d (A.total (N.children.map Child.cache))) := by
  unfold calcCache
  by_cases he : N.children = []
  · rw [he]
    rcases hne with hne | le
    · exact absurd he hne
    · exact le.calc_nil c0
  · exact A.calc_ok c0 _ (by simpa using he) (by
      intro c hc
      obtain ⟨c2, h2, rfl⟩ := List.mem_map.mp hc
      exact cok c2 h2)

theorem total_ok' {N : Node C} (hne : N.children ≠ [] ∨ LawE A)
    (cok : ∀ c ∈ N.children, A.okC c.cache) : A.okC (A.total (N.children.map Child.cache)) := by
  by_cases he : N.children = []
  · rw [he]
    rcases hne with hne | le
    · exact absurd he hne
    · exact le.ok_nil
  · exact A.total_ok _ (by simpa using he) (by
      intro c hc
      obtain ⟨c2, h2, rfl⟩ := List.mem_map.mp hc
      exact cok c2 h2)

/-- root part of the climbs -/
theorem rootCalc_ok {N : Node C} (cok : ∀ c ∈ N.children, A.okC c.cache) (c0 : C) :
    ∃ c d, calcCache B N c0 none = .ok (c, d) ∧
      (N.children ≠ [] → c = A.total (N.children.map Child.cache)) ∧
      (N.children = [] → A.emptyOk c) := by
  by_cases he : N.children = []
  · unfold calcCache
    obtain ⟨c, d, h1, h2⟩ := A.calc_empty c0
    refine ⟨c, d, by rw [he]; exact h1, fun hn => absurd he hn, fun _ => h2⟩
  · obtain ⟨d, h1, -⟩ := calcCache_ok (A := A) (Or.inl he) cok c0
    exact ⟨_, d, h1, fun _ => rfl, fun hn => absurd hn he⟩

theorem kid_ne_self (w : WF s lvl h) {p i y : Nat} (e : Edge s p i (.internal y)) : y ≠ p := by
  intro hy
  have := (w.kin e).1
  rw [hy] at this
  omega

theorem recUpdCalc_spec : ∀ (n : Nat) (s : Tree E C) (x : Nat) (X : Idx → Prop),
    WF s lvl h → COk A s → lnk s x ≠ none → (chs s x ≠ [] ∨ x = s.root ∨ LawE A) →
    CInv A s (fun a => X a ∨ a = .internal x) → h - lvl x < n →
    ∃ s', recUpdCalc B n s x = .ok s' ∧ SameShape s s' ∧ s'.lf = s.lf ∧ COk A s' ∧ RootOK A s' ∧
      CInv A s' (fun a => X a ∧ ∀ y, Anc s x y → a ≠ .internal y) := by
  intro n
  induction n with
  | zero => intro s x X _ _ _ _ _ hn; omega
  | succ n ih =>
    intro s x X w cok hx hne cinv hn
    obtain ⟨N, hN⟩ := lnk_isSome.mp hx
    simp only [recUpdCalc, getIn_ok hN, bind_ok]
    cases hp : N.parent with
    | none =>
      have hr := w.root_of_parent_none hN hp
      subst hr
      simp only [getIn_ok hN, bind_ok]
      obtain ⟨c, d, h1, h2, h3⟩ := rootCalc_ok (A := A) (N := N) (by
        intro c hc; exact cok s.root c (by rw [chs_of hN]; exact hc)) s.rootCache
      rw [h1, bind_ok]
      refine ⟨_, rfl, SameShape.rootCache s c, rfl, cok, ?_, ?_⟩
      · have hN' : ({ s with rootCache := c } : Tree E C).inn.get s.root = some N := hN
        constructor
        · intro hne; rw [cch, chs_of hN']; exact h2 (by rwa [← chs_of hN'])
        · intro he; exact h3 (by rwa [← chs_of hN'])
      · intro p c2 hc2 hX
        have hno : ¬ ∃ i, Edge s p i (.internal s.root) := fun ⟨i, hi⟩ => w.root_not_kid hi
        refine cinv p c2 hc2 ?_
        rintro (hx | hx)
        · apply hX
          refine ⟨hx, fun y hy => ?_⟩
          intro e
          cases hy with
          | refl =>
            obtain ⟨j, hj⟩ := List.mem_iff_getElem?.mp hc2
            exact hno ⟨j, edge_chs.mpr ⟨c2, hj, e⟩⟩
          | step he _ => exact w.root_not_kid he
        · obtain ⟨j, hj⟩ := List.mem_iff_getElem?.mp hc2
          exact hno ⟨j, edge_chs.mpr ⟨c2, hj, hx⟩⟩
    | some p =>
      obtain ⟨hr, he, hl⟩ := w.parent_some hN hp
      obtain ⟨ch, hch, har⟩ := edge_chs.mp he
      obtain ⟨P, hP⟩ := lnk_isSome.mp (edge_live he)
      rw [chs_of hP] at hch
      have hxp : x ≠ p := fun e => by subst e; omega
      simp only [assertM_true (decide_eq_true hxp), getIn_ok hP, bind_ok, vget_ok hch]
      have hne' : N.children ≠ [] ∨ LawE A := by
        rw [← chs_of hN]
        rcases hne with h1 | h1 | h1
        · exact Or.inl h1
        · exact absurd h1 hr
        · exact Or.inr h1
      have hcok : ∀ c ∈ N.children, A.okC c.cache := fun c hc => cok x c (by rw [chs_of hN]; exact hc)
      obtain ⟨d, h1, -⟩ := calcCache_ok hne' hcok ch.cache
      rw [h1, bind_ok]
      have hpx : x ≠ p := kid_ne_self w he
      have sh := setEntry_shape (c' := A.total (N.children.map Child.cache)) hP hch
      have w' := sh.wf w
      have hp' : lnk (setEntry s p P N.slot ch (A.total (N.children.map Child.cache))) p ≠ none := by
        obtain ⟨P', hP', -⟩ := sh.get hP
        exact lnk_isSome.mpr ⟨P', hP'⟩
      have hplvl := (w.lvl_pos' (edge_live he)).2
      have huniq : ∀ q j, Edge s q j ch.arena → q = p ∧ j = N.slot := by
        intro q j hq
        rw [har] at hq
        exact w.kid_in_inj hq he
      have hE : EntryOK A s { ch with cache := A.total (N.children.map Child.cache) } := by
        simp only [EntryOK, har, cch, chs_of hN]
      have cinv' := setEntry_cinv hP hch huniq cinv hE
      obtain ⟨s', e1, sh', lf', cok', rok', ci'⟩ := ih _ p (fun a => X a ∧ a ≠ .internal x) w'
        (setEntry_cok hP cok (total_ok' hne' hcok)) hp' (Or.inl (by
          rw [chs_setEntry hP, if_pos rfl]
          intro hnil
          have := (List.getElem?_eq_some_iff.mp hch).1
          have : P.children = [] := by simpa using hnil
          rw [this] at hch
          simp at hch))
        (cinv'.mono (by
          intro a ha
          rw [har] at ha
          rcases ha with ⟨h1 | h1, h2⟩ | h1
          · exact Or.inl ⟨h1, h2⟩
          · exact absurd h1 h2
          · exact Or.inr h1)) (by omega)
      refine ⟨s', e1, sh.trans sh', lf', cok', rok', ci'.mono ?_⟩
      intro a ⟨⟨h1, h2⟩, h3⟩
      refine ⟨h1, fun y hy => ?_⟩
      cases hy with
      | refl => exact h2
      | step he2 ha =>
        have := (w.kid_in_inj he2 he).1
        subst this
        exact h3 y (sh.anc ha)

end climb
end GB

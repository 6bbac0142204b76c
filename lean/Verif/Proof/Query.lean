import Verif.Proof.Filter
import Verif.Model.LenFinder

/-!
# Searching
-/

namespace GB
variable {E C D Q F : Type}
open Tree

section
variable {s : Tree E C} {lvl : Nat → Nat} {h : Nat} {B : Trait E C D} {A : Law B}

/-- the combined cache of a block of entries -/
def blockCache (A : Law B) (b : List (Nat × E)) : C := A.total (b.map fun x => B.elemCache x.2)

theorem lc_eq (ls : List Nat) : lc B s ls = (entriesOf s ls).map fun x => B.elemCache x.2 := rfl

/-- a non-root child has leaves -/
theorem sub_ne (w : WF s lvl h) (ne : NE s) : ∀ (n x i : Nat) (a : Idx), lvl x = n + 1 → Edge s x i a → entriesOf s (sub s n a) ≠ [] := by
  intro n
  induction n with
  | zero =>
    intro x i a hx hi
    obtain ⟨l, rfl⟩ := (w.kid_leaf_iff hi).mp hx
    obtain ⟨e, he⟩ := elm_some (show lpar s l ≠ none by rw [(w.klf hi).2]; simp)
    simp [sub, entriesOf_cons he]
  | succ n ih =>
    intro x i a hx hi
    cases a with
    | leaf l => have := (w.klf hi).1; omega
    | internal y =>
      have hk := w.kin hi
      have hy : lnk s y ≠ none := by rw [hk.2]; simp
      have hyr : y ≠ s.root := by intro e; subst e; exact w.root_not_kid hi
      have hc := ne y hy hyr
      obtain ⟨b, hb⟩ := List.exists_mem_of_ne_nil _ (show kids s y ≠ [] by rw [kids_chs]; simpa using hc)
      obtain ⟨j, hj⟩ := mem_kids.mp hb
      have := ih y j b (by omega) hj
      intro e
      apply this
      simp only [sub, leavesAt_succ] at e
      obtain ⟨u, v, huv⟩ := List.append_of_mem hb
      rw [huv] at e
      simp only [List.flatMap_append, List.flatMap_cons, entriesOf_append] at e
      have e2 := List.append_eq_nil_iff.mp e
      exact (List.append_eq_nil_iff.mp e2.2).1

/-- the cache of a child entry is the combined cache of the entries below it -/
theorem cache_block (g : Good A s lvl h) (ne : NE s) {n x : Nat} (hx : lvl x = n + 1) {c : Child C} (hc : c ∈ chs s x) :
    c.cache = blockCache A (entriesOf s (sub s n c.arena)) := by
  have := cache_flat g ne n x hx c hc [] []
  simp only [List.nil_append, List.append_nil] at this
  rw [A.total_single _ (g.cok x c hc), lc_eq] at this
  exact this

theorem flatten_blocks (n : Nat) (as : List Idx) :
    (as.map fun a => entriesOf s (sub s n a)).flatten = entriesOf s (as.flatMap (sub s n)) := by
  induction as with
  | nil => rfl
  | cons a as ih => simp [ih, entriesOf_append]

/-- The descent of a query: `P` is any relation between the entries before, inside and after the current
subtree and the finder; one call of the finder turns it into `P'`, which implies `P`. -/
theorem queryF_spec (g : Good A s lvl h) (ne : NE s) (q : Query E C Q F) (arg : Q)
    (P P' : List (Nat × E) → List (Nat × E) → List (Nat × E) → F → Bool → Prop) (up : ∀ U b W fd found, P' U b W fd found → P U b W fd found)
    (step : ∀ (cs : List (Child C)) (bs : List (List (Nat × E))) (U W : List (Nat × E)) (fd : F) (found : Bool),
      bs ≠ [] → (∀ b ∈ bs, b ≠ []) → cs.map Child.cache = bs.map (blockCache A) → entries s = U ++ bs.flatten ++ W →
      P U bs.flatten W fd found →
      ∃ r fd' b1 b b2, q.findNode fd arg cs = .ok (r, fd') ∧ bs = b1 ++ b :: b2 ∧ r.index = b1.length ∧
        P' (U ++ b1.flatten) b (b2.flatten ++ W) fd' (found && r.found)) :
    ∀ (n : Nat) (x k : Nat) (U W : List (Nat × E)) (fd : F) (found : Bool), lnk s x ≠ none → lvl x = k + 1 → k < n →
      chs s x ≠ [] →
      entries s = U ++ entriesOf s (leavesAt s (k + 1) x) ++ W → P U (entriesOf s (leavesAt s (k + 1) x)) W fd found →
      ∃ U' l e W' fd' found', entries s = U' ++ (l, e) :: W' ∧ P' U' [(l, e)] W' fd' found' ∧
        queryF q arg n s x fd found = (do
          let ((offset, lfound), fd) ← q.confirm fd' arg e
          pure (⟨⟨l, offset⟩, found' && lfound⟩, fd) : M _) := by
  intro n
  induction n with
  | zero => intro x k U W fd found _ _ hn; omega
  | succ n ih =>
    intro x k U W fd found hx hlv hk hne hent hP
    obtain ⟨N, hN⟩ := lnk_isSome.mp hx
    have hfl : ((kids s x).map fun a => entriesOf s (sub s k a)).flatten = entriesOf s (leavesAt s (k + 1) x) := by
      rw [flatten_blocks, leavesAt_succ]
    rw [← hfl] at hent hP
    have hkne : kids s x ≠ [] := by rw [kids_chs]; simpa using hne
    obtain ⟨r, fd', b1, b, b2, h1, h2, h3, h4⟩ := step (chs s x) ((kids s x).map fun a => entriesOf s (sub s k a)) U W fd found
      (by simpa using hkne) (by
        intro b hb
        obtain ⟨a, ha, rfl⟩ := List.mem_map.mp hb
        obtain ⟨i, hi⟩ := mem_kids.mp ha
        exact sub_ne g.wf ne k x i a hlv hi) (by
        rw [kids_chs, List.map_map, List.map_map]
        apply List.map_congr_left
        intro c hc
        exact cache_block g ne hlv hc) hent hP
    obtain ⟨a1, a2, ha, rfl, hb2⟩ := List.map_eq_append_iff.mp h2
    obtain ⟨a, a2, rfl, rfl, rfl⟩ := List.map_eq_cons_iff.mp hb2
    have hed : Edge s x r.index a := by rw [Edge, ha, h3]; simp
    obtain ⟨c, hc, rfl⟩ := edge_chs.mp hed
    have hemp : assertM (!N.isEmpty) = .ok () := assertM_true (by
      rw [Node.isEmpty, ← chs_of hN]; simpa using hne)
    simp only [queryF, getIn_ok hN, bind_ok, ← chs_of hN, h1, vget_ok hc, hemp]
    rw [ha, List.map_append, List.map_cons, List.flatten_append, List.flatten_cons] at hent
    have hent' : entries s = (U ++ (a1.map fun a => entriesOf s (sub s k a)).flatten) ++ entriesOf s (sub s k c.arena) ++
        ((a2.map fun a => entriesOf s (sub s k a)).flatten ++ W) := by
      rw [hent]; simp only [List.append_assoc]
    cases har : c.arena with
    | leaf l =>
      rw [har] at hent' h4 hed
      obtain ⟨e, he⟩ := elm_some (show lpar s l ≠ none by rw [(g.wf.klf hed).2]; simp)
      have hk0 : k = 0 := by have := (g.wf.klf hed).1; omega
      subst hk0
      obtain ⟨p, hp⟩ := Option.ne_none_iff_exists'.mp (show lpar s l ≠ none by rw [(g.wf.klf hed).2]; simp)
      obtain ⟨e', hL, he'⟩ := getLf_of hp
      have : e' = e := by rw [he] at he'; cases he'; rfl
      subst this
      simp only [sub, entriesOf_cons he, entriesOf_nil] at hent' h4
      refine ⟨_, l, e', _, fd', _, ?_, h4, ?_⟩
      · rw [hent']; simp
      · simp only [getLf_ok hL, bind_ok]
    | internal y =>
      rw [har] at hent' h4 hed
      have hkk := g.wf.kin hed
      have hy : lnk s y ≠ none := by rw [hkk.2]; simp
      have hyr : y ≠ s.root := by intro e; subst e; exact g.wf.root_not_kid hed
      have hyl := (g.wf.lvl_pos' hy).1
      obtain ⟨k', rfl⟩ : ∃ k', k = k' + 1 := ⟨k - 1, by omega⟩
      simp only [sub] at hent' h4
      exact ih y k' _ _ fd' _ hy (by omega) (by omega) (ne y hy hyr) hent' (up _ _ _ _ _ h4)

/-- searching a non-empty tree -/
theorem queryWithFinder_spec' (g : Good A s lvl h) (ne : NE s) (hne : order s ≠ []) (q : Query E C Q F) (arg : Q)
    (P P' : List (Nat × E) → List (Nat × E) → List (Nat × E) → F → Bool → Prop) (up : ∀ U b W fd found, P' U b W fd found → P U b W fd found)
    (init : P [] (entries s) [] (q.init arg) true)
    (step : ∀ (cs : List (Child C)) (bs : List (List (Nat × E))) (U W : List (Nat × E)) (fd : F) (found : Bool),
      bs ≠ [] → (∀ b ∈ bs, b ≠ []) → cs.map Child.cache = bs.map (blockCache A) → entries s = U ++ bs.flatten ++ W →
      P U bs.flatten W fd found →
      ∃ r fd' b1 b b2, q.findNode fd arg cs = .ok (r, fd') ∧ bs = b1 ++ b :: b2 ∧ r.index = b1.length ∧
        P' (U ++ b1.flatten) b (b2.flatten ++ W) fd' (found && r.found)) :
    ∃ U l e W fd found, entries s = U ++ (l, e) :: W ∧ P' U [(l, e)] W fd found ∧
      queryWithFinder q s arg = (do
        let ((offset, lfound), fd) ← q.confirm fd arg e
        pure (some ⟨⟨l, offset⟩, found && lfound⟩, fd) : M _) := by
  obtain ⟨i, hi⟩ := g.wf.root'
  have hc : chs s s.root ≠ [] := fun hc => hne ((empty_iff g.wf ne).mpr hc)
  obtain ⟨k, hk⟩ : ∃ k, h = k + 1 := ⟨h - 1, by have := g.wf.h_pos; omega⟩
  have hord : entriesOf s (leavesAt s (k + 1) s.root) = entries s := by
    rw [entries, order_eq g.wf, hk]
  obtain ⟨U, l, e, W, fd, found, h1, h2, h3⟩ := queryF_spec g ne q arg P P' up step s.fuel s.root k [] [] (q.init arg) true
    (by rw [hi]; simp) (by rw [g.wf.root_lvl, hk]) (by have := g.wf.h_le; simp only [Tree.fuel]; omega) hc
    (by rw [hord]; simp) (by rw [hord]; exact init)
  refine ⟨U, l, e, W, fd, found, h1, h2, ?_⟩
  have he := isEmpty_spec g.wf ne
  have he2 : isEmpty s = .ok false := by rw [he]; simp [hne]
  simp only [queryWithFinder, he2, bind_ok, h3]
  cases q.confirm fd arg e <;> rfl

/-- the same with one relation -/
theorem queryWithFinder_spec (g : Good A s lvl h) (ne : NE s) (hne : order s ≠ []) (q : Query E C Q F) (arg : Q)
    (P : List (Nat × E) → List (Nat × E) → List (Nat × E) → F → Bool → Prop)
    (init : P [] (entries s) [] (q.init arg) true)
    (step : ∀ (cs : List (Child C)) (bs : List (List (Nat × E))) (U W : List (Nat × E)) (fd : F) (found : Bool),
      bs ≠ [] → (∀ b ∈ bs, b ≠ []) → cs.map Child.cache = bs.map (blockCache A) → entries s = U ++ bs.flatten ++ W →
      P U bs.flatten W fd found →
      ∃ r fd' b1 b b2, q.findNode fd arg cs = .ok (r, fd') ∧ bs = b1 ++ b :: b2 ∧ r.index = b1.length ∧
        P (U ++ b1.flatten) b (b2.flatten ++ W) fd' (found && r.found)) :
    ∃ U l e W fd found, entries s = U ++ (l, e) :: W ∧ P U [(l, e)] W fd found ∧
      queryWithFinder q s arg = (do
        let ((offset, lfound), fd) ← q.confirm fd arg e
        pure (some ⟨⟨l, offset⟩, found && lfound⟩, fd) : M _) :=
  queryWithFinder_spec' g ne hne q arg P P (fun _ _ _ _ _ h => h) init step

/-! ## `LengthFinder` -/

/-- length of a list of entries -/
def lenOf (B : Trait E C D) (b : List (Nat × E)) : Nat := (b.map fun x => B.rleLen x.2).sum

@[simp] theorem lenOf_append (a b : List (Nat × E)) : lenOf B (a ++ b) = lenOf B a + lenOf B b := by simp [lenOf]
@[simp] theorem lenOf_cons (x : Nat × E) (b : List (Nat × E)) : lenOf B (x :: b) = B.rleLen x.2 + lenOf B b := by simp [lenOf]
@[simp] theorem lenOf_nil : lenOf B ([] : List (Nat × E)) = 0 := rfl

/-- the caches measure lengths (`UseLengthFinder`) -/
structure LenLaw (A : Law B) (getLen : C → Nat) : Prop where
  total : ∀ cs, cs ≠ [] → (∀ c ∈ cs, A.okC c) → getLen (A.total cs) = (cs.map getLen).sum
  elem : ∀ e, A.okE e → getLen (B.elemCache e) = B.rleLen e

theorem LenLaw.block {getLen : C → Nat} (L : LenLaw A getLen) {b : List (Nat × E)} (hb : b ≠ []) (ho : ∀ x ∈ b, A.okE x.2) :
    getLen (blockCache A b) = lenOf B b := by
  rw [blockCache, L.total _ (by simpa using hb), lenOf]
  · rw [List.map_map]
    congr 1
    apply List.map_congr_left
    intro x hx
    exact L.elem _ (ho x hx)
  · intro c hc
    obtain ⟨x, hx, rfl⟩ := List.mem_map.mp hc
    exact A.elem_ok _ (ho x hx)

theorem lenLoop_spec (getLen : C → Nat) : ∀ (cs : List (Child C)) (bs : List (List (Nat × E))) (i left lastLeft : Nat),
    cs.map (fun c => getLen c.cache) = bs.map (lenOf B) →
    (∃ b1 b b2 a, bs = b1 ++ b :: b2 ∧ lenOf B b1.flatten ≤ left ∧ left - lenOf B b1.flatten < lenOf B b ∧
      lenLoop getLen cs i left lastLeft = .inl (i + b1.length, a, left - lenOf B b1.flatten)) ∨
    (lenOf B bs.flatten ≤ left ∧ ∃ x, lenLoop getLen cs i left lastLeft = .inr (x, match bs.getLast? with
      | none => lastLeft
      | some _ => left - lenOf B bs.dropLast.flatten)) := by
  intro cs
  induction cs with
  | nil =>
    intro bs i left lastLeft hc
    have : bs = [] := by simpa using hc.symm
    subst this
    right
    exact ⟨Nat.zero_le _, left, rfl⟩
  | cons c cs ih =>
    intro bs i left lastLeft hc
    cases bs with
    | nil => simp at hc
    | cons b bs =>
      simp only [List.map_cons, List.cons.injEq] at hc
      obtain ⟨h1, h2⟩ := hc
      simp only [lenLoop, h1]
      by_cases hle : lenOf B b ≤ left
      · rw [if_pos hle]
        rcases ih bs (i + 1) (left - lenOf B b) left h2 with ⟨b1, b', b2, a, e1, e2, e3, e4⟩ | ⟨e1, x, e2⟩
        · left
          refine ⟨b :: b1, b', b2, a, by rw [e1]; rfl, ?_, ?_, ?_⟩
          · simp only [List.flatten_cons, lenOf_append]; omega
          · simp only [List.flatten_cons, lenOf_append]; rw [← Nat.sub_sub]; exact e3
          · simp only [List.flatten_cons, lenOf_append, List.length_cons, e4]
            rw [Nat.sub_sub, Nat.add_assoc, Nat.add_comm 1]
        · right
          refine ⟨by simp only [List.flatten_cons, lenOf_append]; omega, x, ?_⟩
          rw [e2]
          cases bs with
          | nil => simp
          | cons b' bs =>
            simp only [List.getLast?_cons_cons, List.dropLast_cons₂, List.flatten_cons, lenOf_append]
            have : ∃ z, (b' :: bs).getLast? = some z := ⟨_, List.getLast?_eq_some_getLast (by simp)⟩
            obtain ⟨z, hz⟩ := this
            simp only [hz]
            rw [Nat.sub_sub]
      · rw [if_neg hle]
        left
        exact ⟨[], b, bs, c.arena, rfl, by simp, by simp; omega, by simp⟩

/-- `LengthFinder` finds the position `i`, or the end of the last leaf. -/
theorem lenQuery_spec (g : Good A s lvl h) (ne : NE s) {getLen : C → Nat} (L : LenLaw A getLen) (hne : order s ≠ []) (i : Nat) :
    ∃ U l e W o, entries s = U ++ (l, e) :: W ∧
      query (lenQuery B getLen) s i = .ok (some ⟨⟨l, o⟩, decide (i < lenOf B (entries s))⟩) ∧
      lenOf B U + o = i ∧ (i < lenOf B (entries s) → o < B.rleLen e) ∧ (lenOf B (entries s) ≤ i → W = []) := by
  have hok : ∀ x ∈ entries s, A.okE x.2 := fun x hx => g.okE x.1 x.2 (mem_entries_elm hx).2
  obtain ⟨U, l, e, W, fd, found, h1, ⟨h2, h3⟩, h4⟩ := queryWithFinder_spec g ne hne (lenQuery B getLen) i
    (fun U v W fd found => lenOf B U + fd.left = i ∧
      ((i < lenOf B (entries s) ∧ found = true ∧ fd.left < lenOf B v) ∨ (lenOf B (entries s) ≤ i ∧ W = [])))
    (by
      refine ⟨by simp [lenQuery], ?_⟩
      simp only [lenQuery]
      rcases Nat.lt_or_ge i (lenOf B (entries s)) with hlt | hge
      · exact Or.inl ⟨hlt, trivial, hlt⟩
      · exact Or.inr ⟨hge, trivial⟩)
    (by
      intro cs bs U W fd found hbs hbn hcs hent ⟨hP1, hP2⟩
      have hlen : cs.map (fun c => getLen c.cache) = bs.map (lenOf B) := by
        have : cs.map (fun c => getLen c.cache) = (cs.map Child.cache).map getLen := by rw [List.map_map]; rfl
        rw [this, hcs, List.map_map]
        apply List.map_congr_left
        intro b hb
        apply L.block (hbn b hb)
        intro x hx
        apply hok
        rw [hent]
        simp only [List.mem_append, List.mem_flatten]
        exact Or.inl (Or.inr ⟨b, hb, hx⟩)
      have hl : cs.length = bs.length := by
        have := congrArg List.length hlen
        simpa using this
      have hcne : cs ≠ [] := by
        intro e; subst e; exact hbs (List.length_eq_zero_iff.mp hl.symm)
      obtain ⟨c0, cs0, rfl⟩ := List.exists_cons_of_ne_nil hcne
      obtain ⟨cl, hcl⟩ : ∃ z, (c0 :: cs0).getLast? = some z := ⟨_, List.getLast?_eq_some_getLast (by simp)⟩
      have htot : lenOf B (entries s) = lenOf B U + lenOf B bs.flatten + lenOf B W := by rw [hent]; simp [Nat.add_assoc]
      rcases lenLoop_spec (B := B) getLen (c0 :: cs0) bs 0 fd.left fd.left hlen with ⟨b1, b, b2, a, e1, e2, e3, e4⟩ | ⟨e1, x, e2⟩
      · have key : ∃ fd' : LenFinder, lenFindNode getLen fd (c0 :: cs0) = .ok (⟨0 + b1.length, fd.left - lenOf B b1.flatten, true⟩, fd') ∧
            fd'.left = fd.left - lenOf B b1.flatten := by
          simp only [lenFindNode, List.head?_cons, unwrap_some, bind_ok, e4]
          split <;> exact ⟨_, rfl, rfl⟩
        obtain ⟨fd', k1, k2⟩ := key
        refine ⟨_, fd', b1, b, b2, k1, e1, by simp, ?_⟩
        have h2 : i < lenOf B (entries s) := by
          rw [htot, e1]; simp only [List.flatten_append, List.flatten_cons, lenOf_append]; omega
        have h3 : found = true := by
          rcases hP2 with h | h
          · exact h.2.1
          · omega
        simp only [lenOf_append]
        exact ⟨by omega, Or.inl ⟨h2, by simp [h3], by omega⟩⟩
      · have hge : lenOf B (entries s) ≤ i ∧ W = [] := by
          rcases hP2 with h | h
          · have := h.2.2; omega
          · exact h
        obtain ⟨b, hb⟩ : ∃ z, bs.getLast? = some z := ⟨_, List.getLast?_eq_some_getLast hbs⟩
        have hbs2 : bs.dropLast ++ [b] = bs := by
          obtain ⟨ys, rfl⟩ := List.getLast?_eq_some_iff.mp hb
          simp
        rw [hb] at e2
        have key : ∃ fd' : LenFinder, lenFindNode getLen fd (c0 :: cs0) =
            .ok (⟨(c0 :: cs0).length - 1, fd.left - lenOf B bs.dropLast.flatten, false⟩, fd') ∧
            fd'.left = fd.left - lenOf B bs.dropLast.flatten := by
          simp only [lenFindNode, List.head?_cons, unwrap_some, bind_ok, e2, hcl]
          split <;> exact ⟨_, rfl, rfl⟩
        obtain ⟨fd', k1, k2⟩ := key
        refine ⟨_, fd', bs.dropLast, b, [], k1, hbs2.symm, by rw [List.length_dropLast, ← hl], ?_⟩
        have : lenOf B bs.dropLast.flatten ≤ fd.left := by
          have : lenOf B bs.flatten = lenOf B bs.dropLast.flatten + lenOf B b := by
            conv => lhs; rw [← hbs2]
            simp
          omega
        simp only [lenOf_append]
        exact ⟨by omega, Or.inr ⟨hge.1, by simp [hge.2]⟩⟩)
  refine ⟨U, l, e, W, fd.left, h1, ?_, h2, ?_, ?_⟩
  · rw [query, h4]
    simp only [lenQuery, bind_ok, pure_ok]
    congr 3
    have : lenOf B (entries s) = lenOf B U + (B.rleLen e + lenOf B W) := by rw [h1]; simp
    rcases h3 with ⟨a, b, c⟩ | ⟨a, b⟩
    · rw [b, decide_eq_true a]
      simp only [lenOf_cons, lenOf_nil] at c
      simpa using c
    · subst b
      rw [decide_eq_false (by omega), decide_eq_false (by simp at this; omega)]
      simp
  · intro hlt
    rcases h3 with ⟨a, b, c⟩ | ⟨a, b⟩
    · simpa using c
    · omega
  · intro hge
    rcases h3 with ⟨a, b, c⟩ | ⟨a, b⟩
    · omega
    · exact b

theorem query_empty (w : WF s lvl h) (ne : NE s) (he : order s = []) (q : Query E C Q F) (arg : Q) :
    query q s arg = .ok none := by
  have h1 := isEmpty_spec w ne
  rw [he] at h1
  simp only [query, queryWithFinder, h1, bind_ok, List.isEmpty_nil, if_pos, pure_ok]

end
end GB

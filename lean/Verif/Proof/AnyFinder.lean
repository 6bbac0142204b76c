import Verif.Spec.Finder
import Verif.Proof.Query

/-!
# Searches with any finder
-/

namespace GB
variable {E C D Q F : Type} {B : Trait E C D} {A : Law B}
open Tree

variable {s : Tree E C} {lvl : Nat → Nat} {h : Nat}

theorem snd_flatten (bs : List (List (Nat × E))) : (bs.map fun b => b.map Prod.snd).flatten = bs.flatten.map Prod.snd := by
  induction bs with
  | nil => rfl
  | cons b bs ih => rw [List.map_cons, List.flatten_cons, List.flatten_cons, List.map_append, ih]

theorem anyQuery_spec (g : Good A s lvl h) (ne : NE s) (hne : order s ≠ []) {q : Query E C Q F} {arg : Q} {hit : List E → Bool}
    {Rep : List E → F → Prop} {X : Prop} (L : FinderLaw A q arg ((entries s).map Prod.snd) hit Rep X) :
    ∃ U l e W fd found, entries s = U ++ (l, e) :: W ∧ HitsAt hit (U.map Prod.snd) [e] (W.map Prod.snd) ∧ Rep (U.map Prod.snd) fd ∧
      (X → found = hit ((entries s).map Prod.snd)) ∧
      queryWithFinder q s arg = (do
        let ((offset, lfound), fd) ← q.confirm fd arg e
        pure (some ⟨⟨l, offset⟩, found && lfound⟩, fd) : M _) := by
  obtain ⟨U, l, e, W, fd, found, h1, ⟨h2, h3, h4, h5⟩, h6⟩ := queryWithFinder_spec' g ne hne q arg
    (fun U b W fd found => Rep (U.map Prod.snd) fd ∧ (U ≠ [] → hit (U.map Prod.snd) = false) ∧
      (W ≠ [] → hit (U.map Prod.snd ++ b.map Prod.snd) = true) ∧ (X → found = true ∨ found = hit (U.map Prod.snd ++ b.map Prod.snd)))
    (fun U b W fd found => Rep (U.map Prod.snd) fd ∧ (U ≠ [] → hit (U.map Prod.snd) = false) ∧
      (W ≠ [] → hit (U.map Prod.snd ++ b.map Prod.snd) = true) ∧ (X → found = hit (U.map Prod.snd ++ b.map Prod.snd)))
    (fun U b W fd found ⟨a1, a2, a3, a4⟩ => ⟨a1, a2, a3, fun x => Or.inr (a4 x)⟩)
    ⟨L.init, fun h => absurd rfl h, fun h => absurd rfl h, fun _ => Or.inl rfl⟩
    (by
      intro cs bs U W fd found hbs hbn hcs hent ⟨p1, p2, p3, p4⟩
      obtain ⟨r, fd', b1, b, b2, k1, k2, k3, k4, k5, k6, k7⟩ := L.step cs (bs.map fun b => b.map Prod.snd) (U.map Prod.snd) (W.map Prod.snd) fd
        (by simpa using hbs) (by
          intro b hb
          obtain ⟨b', hb', rfl⟩ := List.mem_map.mp hb
          simpa using hbn b' hb')
        (by rw [snd_flatten, hent]; simp)
        (by rw [hcs, List.map_map]; apply List.map_congr_left; intro b _; simp [blockCache, Function.comp_def]) p1
      obtain ⟨a1, a2, ha, rfl, hb2⟩ := List.map_eq_append_iff.mp k2
      obtain ⟨a, a2, rfl, rfl, rfl⟩ := List.map_eq_cons_iff.mp hb2
      rw [snd_flatten] at k4 k5 k6 k7
      refine ⟨r, fd', a1, a, a2, k1, ha, by simpa using k3, by simpa using k6, ?_, ?_, ?_⟩
      · intro hU
        rw [List.map_append]
        by_cases ha1 : a1 = []
        · subst ha1
          simp only [List.flatten_nil, List.append_nil, List.map_nil] at hU ⊢
          exact p2 hU
        · exact k4 (by simpa using ha1)
      · intro hW
        rw [List.map_append]
        by_cases ha2 : a2 = []
        · subst ha2
          simp only [List.flatten_nil, List.nil_append] at hW
          have := p3 hW
          rw [ha] at this
          simpa [List.append_assoc] using this
        · exact k5 (by simpa using ha2)
      · intro x
        rw [List.map_append, k7 x]
        cases hf : hit (U.map Prod.snd ++ a1.flatten.map Prod.snd ++ a.map Prod.snd) with
        | false => simp
        | true =>
          rcases p4 x with h | h
          · simp [h]
          · rw [h, ha]
            have := L.mono _ (a2.flatten.map Prod.snd) (by
              have := hbn a (by rw [ha]; simp)
              simp [this]) hf
            simp only [List.append_assoc] at this
            rw [List.flatten_append, List.flatten_cons, List.map_append, List.map_append, this]
            rfl)
  refine ⟨U, l, e, W, fd, found, h1, ⟨fun h => h3 (by simpa using h), fun h => by simpa using h4 (by simpa using h)⟩, h2, ?_, h6⟩
  intro x
  rw [h5 x, h1]
  by_cases hW : W = []
  · subst hW; simp
  · have := h4 hW
    have h7 := L.mono _ (W.map Prod.snd) (by simp) this
    rw [this]
    simpa using h7.symm

/-- where the predicate becomes true is one place -/
theorem HitsAt.unique {hit : List E → Bool} (hm : StaysTrue hit) {U U' W W' : List E} {e e' : E} (h1 : HitsAt hit U [e] W)
    (h2 : HitsAt hit U' [e'] W') (he : U ++ e :: W = U' ++ e' :: W') : U = U' ∧ e = e' ∧ W = W' := by
  have key : ∀ {U U' W W' : List E} {e e' : E}, HitsAt hit U [e] W → HitsAt hit U' [e'] W' → U ++ e :: W = U' ++ e' :: W' → U'.length ≤ U.length := by
    intro U U' W W' e e' h1 h2 he
    apply Decidable.byContradiction
    intro hlt
    have hp : U ++ [e] <+: U' := by
      have p1 : U ++ [e] <+: U' ++ e' :: W' := by rw [← he]; exact ⟨W, by simp⟩
      exact List.prefix_of_prefix_length_le p1 (List.prefix_append _ _) (by simp; omega)
    obtain ⟨R, hR⟩ := hp
    have hW : W ≠ [] := by
      rintro rfl
      have := congrArg List.length he
      simp at this
      omega
    have t1 := hm _ R (by simp) (h1.2 hW)
    rw [hR, h2.1 (by intro e; subst e; simp at hlt)] at t1
    cases t1
  have hl : U.length = U'.length := Nat.le_antisymm (key h2 h1 he.symm) (key h1 h2 he)
  have := List.append_inj he hl
  simp only [List.cons.injEq] at this
  exact ⟨this.1, this.2.1, this.2.2⟩

/-- the scanning loop chooses the right block -/
theorem scanLoop_spec (tot : List C → C) (pred : C → Bool) : ∀ (cs acc : List C) (i : Nat), cs ≠ [] →
    ∃ c1 c c2, cs = c1 ++ c :: c2 ∧ scanLoop tot pred acc cs i = (⟨i + c1.length, 0, pred (tot (acc ++ c1 ++ [c]))⟩, acc ++ c1) ∧
      (∀ u v, c1 = u ++ v → v ≠ c1 → pred (tot (acc ++ u)) = false) ∧ (c2 ≠ [] → pred (tot (acc ++ c1 ++ [c])) = true) := by
  intro cs
  induction cs with
  | nil => intro _ _ h; exact absurd rfl h
  | cons c cs ih =>
    intro acc i _
    cases cs with
    | nil =>
      refine ⟨[], c, [], rfl, by simp [scanLoop], ?_, fun h => absurd rfl h⟩
      intro u v huv hv
      have := List.append_eq_nil_iff.mp huv.symm
      exact absurd this.2 hv
    | cons c' cs =>
      by_cases hp : pred (tot (acc ++ [c])) = true
      · refine ⟨[], c, c' :: cs, rfl, by simp [scanLoop, hp], ?_, fun _ => by simpa using hp⟩
        intro u v huv hv
        have := List.append_eq_nil_iff.mp huv.symm
        exact absurd this.2 hv
      · obtain ⟨c1, d, c2, e1, e2, e3, e4⟩ := ih (acc ++ [c]) (i + 1) (by simp)
        refine ⟨c :: c1, d, c2, by rw [e1]; rfl, ?_, ?_, ?_⟩
        · rw [scanLoop, if_neg hp, e2]
          · simp [Nat.add_assoc, Nat.add_comm 1]
          · simp
        · intro u v huv hv
          cases u with
          | nil => exact absurd huv.symm hv
          | cons x u =>
            simp only [List.cons_append, List.cons.injEq] at huv
            obtain ⟨rfl, huv⟩ := huv
            by_cases hu : u = []
            · subst hu; simpa using hp
            · have := e3 u v huv (by
                intro e
                rw [e] at huv
                have := congrArg List.length huv
                simp at this
                exact hu this)
              simpa using this
        · intro h
          have := e4 h
          simpa using this

/-- caches of blocks can be replaced by the caches of their elements -/
theorem total_blocks (A : Law B) : ∀ (bs : List (List E)) (l r : List C), (∀ b ∈ bs, b ≠ []) →
    A.total (l ++ bs.map (fun b => A.total (b.map B.elemCache)) ++ r) = A.total (l ++ bs.flatten.map B.elemCache ++ r) := by
  intro bs
  induction bs with
  | nil => intro l r _; simp
  | cons b bs ih =>
    intro l r hb
    have h1 := A.total_flat l (b.map B.elemCache) (bs.map (fun b => A.total (b.map B.elemCache)) ++ r) (by simpa using hb b (by simp))
    have h2 := ih (l ++ b.map B.elemCache) r (fun x hx => hb x (by simp [hx]))
    simp only [List.append_assoc] at h1 h2
    rw [List.map_cons, List.append_assoc, List.cons_append, h1, h2]
    simp

/-- the scanning finder follows its predicate -/
theorem scan_law (A : Law B) (pred : C → Bool) (es : List E) (hm : StaysTrue fun P => pred (A.total (P.map B.elemCache))) :
    FinderLaw A (scanQuery B A.total) pred es (fun P => pred (A.total (P.map B.elemCache)))
      (fun U acc => (acc = [] ↔ U = []) ∧ ∀ r, A.total (acc ++ r) = A.total (U.map B.elemCache ++ r)) True where
  mono := hm
  init := ⟨by simp [scanQuery], by simp [scanQuery]⟩
  step := by
    intro cs bs U W fd hbs hbn hent hcs ⟨hr0, hr⟩
    obtain ⟨c1, c, c2, e1, e2, e3, e4⟩ := scanLoop_spec A.total pred (cs.map Child.cache) fd 0 (by rw [hcs]; simpa using hbs)
    have e1' := e1
    rw [hcs] at e1'
    obtain ⟨b1, b2, hb, rfl, hb2⟩ := List.map_eq_append_iff.mp e1'
    obtain ⟨b, b2, rfl, rfl, rfl⟩ := List.map_eq_cons_iff.mp hb2
    have hbn1 : ∀ x ∈ b1, x ≠ [] := fun x hx => hbn x (by rw [hb]; simp [hx])
    have hbb : b ≠ [] := hbn b (by rw [hb]; simp)
    have t1 : ∀ r, A.total (fd ++ b1.map (fun b => A.total (b.map B.elemCache)) ++ r) = A.total ((U ++ b1.flatten).map B.elemCache ++ r) := by
      intro r
      rw [total_blocks A b1 fd r hbn1, List.append_assoc, hr]
      simp
    have t2 : A.total (fd ++ b1.map (fun b => A.total (b.map B.elemCache)) ++ [A.total (b.map B.elemCache)]) =
        A.total ((U ++ b1.flatten ++ b).map B.elemCache) := by
      rw [t1, A.total_flat _ _ [] (by simpa using hbb)]
      simp
    rw [t2] at e2 e4
    refine ⟨_, _, b1, b, b2, by simp only [scanQuery]; rw [e2], hb, by simp, ?_, fun h => e4 (by simpa using h), ⟨?_, t1⟩, fun _ => rfl⟩
    · intro h
      have := e3 (b1.map fun b => A.total (b.map B.elemCache)) [] (by simp) (by simpa using h.symm)
      have t := t1 []
      simp only [List.append_nil] at t
      rwa [t] at this
    · constructor
      · intro h
        obtain ⟨h1, h2⟩ := List.append_eq_nil_iff.mp h
        rw [hr0.mp h1, List.map_eq_nil_iff.mp h2]
        rfl
      · intro h
        obtain ⟨h1, h2⟩ := List.append_eq_nil_iff.mp h
        cases b1 with
        | nil => rw [hr0.mpr h1]; rfl
        | cons x b1 =>
          simp only [List.flatten_cons, List.append_eq_nil_iff] at h2
          exact absurd h2.1 (hbn1 x (by simp))

/-- `LengthFinder` follows the predicate "longer than the target" -/
theorem len_law {getLen : C → Nat} (L : LenLaw A getLen) (i : Nat) (es : List E) (hok : ∀ e ∈ es, A.okE e) :
    FinderLaw A (lenQuery B getLen) i es (fun P => decide (i < (P.map B.rleLen).sum))
      (fun U fd => (U.map B.rleLen).sum + fd.left = i) True where
  mono := by
    intro P R _ h
    simp only [decide_eq_true_eq, List.map_append, List.sum_append] at h ⊢
    omega
  init := by simp [lenQuery]
  step := by
    intro cs bs U W fd hbs hbn hent hcs hr
    let tag : List E → List (Nat × E) := fun b => b.map fun e => (0, e)
    have htag : ∀ b, lenOf B (tag b) = (b.map B.rleLen).sum := by
      intro b
      simp [lenOf, tag, Function.comp_def]
    have htf : ∀ bs : List (List E), lenOf B (bs.map tag).flatten = (bs.flatten.map B.rleLen).sum := by
      intro bs
      rw [← htag]
      congr 1
      induction bs with
      | nil => rfl
      | cons b bs ih => rw [List.map_cons, List.flatten_cons, List.flatten_cons, ih]; simp [tag]
    have hlen : cs.map (fun c => getLen c.cache) = (bs.map tag).map (lenOf B) := by
      have : cs.map (fun c => getLen c.cache) = (cs.map Child.cache).map getLen := by rw [List.map_map]; rfl
      rw [this, hcs, List.map_map, List.map_map]
      apply List.map_congr_left
      intro b hb
      have := L.block (b := tag b) (by simpa [tag] using hbn b hb) (by
        intro x hx
        obtain ⟨e, he, rfl⟩ := List.mem_map.mp hx
        apply hok
        rw [← hent]
        simp only [List.mem_append, List.mem_flatten]
        exact Or.inl (Or.inr ⟨b, hb, he⟩))
      simpa [blockCache, tag, Function.comp_def] using this
    have hl : cs.length = bs.length := by
      have := congrArg List.length hlen
      simpa using this
    have hcne : cs ≠ [] := by
      intro e; subst e; exact hbs (List.length_eq_zero_iff.mp hl.symm)
    obtain ⟨c0, cs0, rfl⟩ := List.exists_cons_of_ne_nil hcne
    obtain ⟨cl, hcl⟩ : ∃ z, (c0 :: cs0).getLast? = some z := ⟨_, List.getLast?_eq_some_getLast (by simp)⟩
    rcases lenLoop_spec (B := B) getLen (c0 :: cs0) (bs.map tag) 0 fd.left fd.left hlen with ⟨b1, b, b2, a, e1, e2, e3, e4⟩ | ⟨e1, x, e2⟩
    · obtain ⟨b1, b2, rfl, rfl, hb2⟩ := List.map_eq_append_iff.mp e1
      obtain ⟨b, b2, rfl, rfl, rfl⟩ := List.map_eq_cons_iff.mp hb2
      rw [htf] at e2 e3 e4
      rw [htag] at e3
      have key : ∃ fd' : LenFinder, lenFindNode getLen fd (c0 :: cs0) = .ok (⟨0 + b1.length, fd.left - (b1.flatten.map B.rleLen).sum, true⟩, fd') ∧
          fd'.left = fd.left - (b1.flatten.map B.rleLen).sum := by
        simp only [lenFindNode, List.head?_cons, unwrap_some, bind_ok, e4, List.length_map]
        split <;> exact ⟨_, rfl, rfl⟩
      obtain ⟨fd', k1, k2⟩ := key
      refine ⟨_, fd', b1, b, b2, k1, rfl, by simp, ?_, ?_, ?_, ?_⟩ <;>
        simp only [List.map_append, List.sum_append, k2, decide_eq_true_eq, decide_eq_false_iff_not] <;> intros <;> first | omega | skip
      symm
      rw [decide_eq_true_eq]
      omega
    · obtain ⟨b, hb⟩ : ∃ z, bs.getLast? = some z := ⟨_, List.getLast?_eq_some_getLast hbs⟩
      have hbs2 : bs.dropLast ++ [b] = bs := by
        obtain ⟨ys, rfl⟩ := List.getLast?_eq_some_iff.mp hb
        simp
      rw [List.getLast?_map, hb] at e2
      simp only [Option.map_some, ← List.map_dropLast] at e2
      rw [htf] at e1 e2
      have key : ∃ fd' : LenFinder, lenFindNode getLen fd (c0 :: cs0) =
          .ok (⟨(c0 :: cs0).length - 1, fd.left - (bs.dropLast.flatten.map B.rleLen).sum, false⟩, fd') ∧
          fd'.left = fd.left - (bs.dropLast.flatten.map B.rleLen).sum := by
        simp only [lenFindNode, List.head?_cons, unwrap_some, bind_ok, e2, hcl]
        split <;> exact ⟨_, rfl, rfl⟩
      obtain ⟨fd', k1, k2⟩ := key
      have hsum : (bs.flatten.map B.rleLen).sum = (bs.dropLast.flatten.map B.rleLen).sum + (b.map B.rleLen).sum := by
        conv => lhs; rw [← hbs2]
        simp
      refine ⟨_, fd', bs.dropLast, b, [], k1, hbs2.symm, by rw [List.length_dropLast, ← hl], ?_, fun h => absurd rfl h, ?_, ?_⟩ <;>
        simp only [List.map_append, List.sum_append, k2, decide_eq_false_iff_not] <;> intros <;> first | omega | skip
      symm
      rw [decide_eq_false_iff_not]
      omega

end GB

import Verif.Proof.MergeAdj
import Verif.Proof.Sample
import Verif.Props.C38

/-!
# C25: the batch pre-merge of `insert_many_by_cursor`

The full statement, "`merge_adj` keeps the concatenation of the contents", is false: from the second merge on,
`data.swap(i + 1, to_delete_start + del_len)` (src/lib.rs:2748) moves a live element behind later ones.
`C25_exact` says what the code computes on every list: `scramble` of the merged pairs.
-/

namespace GB
variable {E C D X : Type}

/-- Witness: buffers of capacity 4 holding `1`, `2`, `3333`, `44`, `55`.  The contents become `12`, `4455`, `3333`. -/
theorem C25_false :
    (mergeAdj ropeTrait [⟨[1, 0, 0, 0], 1, 3⟩, ⟨[2, 0, 0, 0], 1, 3⟩, ⟨[3, 3, 3, 3], 4, 0⟩, ⟨[4, 4, 0, 0], 2, 2⟩, ⟨[5, 5, 0, 0], 2, 2⟩]).map
      (fun r => r.map GapBuf.toVec) = .ok [[1, 2], [4, 4, 5, 5], [3, 3, 3, 3]] := by
  rfl

/-- A second witness, without any element between the merged pairs. -/
theorem C25_false_contiguous :
    (mergeAdj ropeTrait [⟨[1, 1, 1, 0], 3, 1⟩, ⟨[1, 0, 0, 0], 1, 3⟩, ⟨[2, 2, 2, 0], 3, 1⟩, ⟨[2, 0, 0, 0], 1, 3⟩,
        ⟨[3, 3, 3, 0], 3, 1⟩, ⟨[3, 0, 0, 0], 1, 3⟩]).map
      (fun r => r.map GapBuf.toVec) = .ok [[1, 1, 1, 1], [3, 3, 3, 3], [2, 2, 2, 2]] := by
  rfl

/-- What is true of every list: the elements of the greedy left-to-right merge all appear, in some order; nothing is
lost or duplicated, and no panic beyond those of `merge_right`. -/
theorem C25_permutation (B : Trait E C D) {data t : List E} (h : data ≠ []) (hg : greedy B data = .ok t) :
    ∃ r, mergeAdj B data = .ok r ∧ r.Perm t := by
  rw [mergeAdj_eq B h]
  obtain ⟨r, h1, h2⟩ := (adjSpec_perm B data.length true [] [] data (Nat.le_refl _) (by simp)).2 t hg
  exact ⟨r, h1, by simpa using h2⟩

/-- The exact result for every list: the elements up to the first merged pair keep their places; behind it every further merged pair moves the
first element to the end. -/
theorem C25_exact (B : Trait E C D) {data : List E} {t : List (Bool × E)} (h : data ≠ []) (ht : pairs B data = .ok t) :
    mergeAdj B data = .ok (scramble t) := by
  rw [mergeAdj_eq B h, (adjSpec_scramble B data.length data t (Nat.le_refl _) ht).1 []]
  rfl

/-- For every list of valid elements: no panic, the results are valid, and no unit of content is lost, duplicated or invented. -/
theorem C25_content_perm {B : Trait E C D} (A : Law B) {cont : E → List X} (L : ContentLaw B A.okE cont) {data : List E} (h : data ≠ [])
    (hok : ∀ d ∈ data, A.okE d) :
    ∃ r, mergeAdj B data = .ok r ∧ (∀ d ∈ r, A.okE d) ∧ (r.flatMap cont).Perm (data.flatMap cont) := by
  obtain ⟨t, h1, h2⟩ := greedy_ok A data.length data (Nat.le_refl _) hok
  obtain ⟨r, h3, h4⟩ := C25_permutation B h h1
  refine ⟨r, h3, fun d hd => h2 d (h4.mem_iff.mp hd), ?_⟩
  rw [← greedy_content L data.length data t (Nat.le_refl _) hok h1]
  exact h4.flatMap_right cont

theorem foldl_unmerged : ∀ (V : List (Bool × E)) (R : List E), (∀ x ∈ V, x.1 = false) → V.foldl scrambleStep R = R ++ V.map Prod.snd := by
  intro V
  induction V with
  | nil => intro R _; simp
  | cons x V ih =>
    intro R h
    obtain ⟨b, x⟩ := x
    have hb : b = false := h (b, x) (by simp)
    subst hb
    rw [List.foldl_cons, ih _ (fun y hy => h y (by simp [hy]))]
    simp [scrambleStep]

/-- The order is kept if there are at most two merged pairs and, if there are two, they stand next to each other. -/
theorem C25_order_pairs_partial (B : Trait E C D) {data : List E} {U V : List (Bool × E)} (h : data ≠ []) (hU : ∀ x ∈ U, x.1 = false) (hV : ∀ x ∈ V, x.1 = false)
    {M : List E} (hM : M.length ≤ 2) (ht : pairs B data = .ok (U ++ M.map (fun c => (true, c)) ++ V)) :
    mergeAdj B data = .ok (U.map Prod.snd ++ M ++ V.map Prod.snd) := by
  rw [C25_exact B h ht]
  congr 1
  have key : ∀ W : List (Bool × E), scramble (U ++ W) = U.map Prod.snd ++ scramble W := by
    clear ht
    induction U with
    | nil => intro W; rfl
    | cons x U ih =>
      intro W
      obtain ⟨b, x⟩ := x
      have hb : b = false := hU (b, x) (by simp)
      subst hb
      simp only [List.cons_append, scramble, List.map_cons]
      rw [ih (fun y hy => hU y (by simp [hy]))]
  rw [List.append_assoc, key, List.append_assoc]
  congr 1
  match M, hM with
  | [], _ =>
    simp only [List.map_nil, List.nil_append]
    clear ht
    induction V with
    | nil => rfl
    | cons x V ih =>
      obtain ⟨b, x⟩ := x
      have hb : b = false := hV (b, x) (by simp)
      subst hb
      simp only [scramble, List.map_cons]
      rw [ih (fun y hy => hV y (by simp [hy]))]
  | [c], _ => simp [scramble, foldl_unmerged V _ hV]
  | [c, d], _ => simp [scramble, foldl_unmerged V _ hV, scrambleStep]

/-- Content is kept in order when no two neighbours, or exactly one pair of neighbours, can be merged. -/
theorem C25_order_partial {B : Trait E C D} {okE : E → Prop} {cont : E → List X} (L : ContentLaw B okE cont) {data : List E}
    (hok : ∀ e ∈ data, okE e) (hmr : ∀ a b, okE a → okE b → B.canMerge a b = true → ∃ c, B.mergeRight a b = .ok c) :
    (data ≠ [] → (∀ U a b V, data = U ++ a :: b :: V → B.canMerge a b = false) → mergeAdj B data = .ok data) ∧
    (∀ U a b V, data = U ++ a :: b :: V → B.canMerge a b = true →
      (∀ X x y Y, U ++ [a] = X ++ x :: y :: Y → B.canMerge x y = false) →
      (∀ X x y Y, V = X ++ x :: y :: Y → B.canMerge x y = false) →
      ∃ r, mergeAdj B data = .ok r ∧ r.flatMap cont = data.flatMap cont) := by
  refine ⟨?_, ?_⟩
  · intro hne h
    rw [mergeAdj_eq B hne, adjSpec_id B data true [] [] (by simp) h]
    rfl
  · rintro U a b V rfl hc hU hV
    have ha : okE a := hok a (by simp)
    have hb : okE b := hok b (by simp)
    obtain ⟨c, hm⟩ := hmr a b ha hb hc
    refine ⟨U ++ c :: V, ?_, ?_⟩
    · rw [mergeAdj_eq B (by simp), adjSpec_one B hc hm hV U [] hU]
      rfl
    · have := L.merge_right a b c ha hb hc hm
      simp [this]

/-- On chunks of a string, as `Rope::insert` passes them, nothing is merged. -/
theorem C25_rope_chunks {cap : Nat} (hcap : 0 < cap) {s : List UInt8} {gs : List GapBuf} (h : GapBuf.fromStr cap s = .ok gs) (hne : gs ≠ []) :
    mergeAdj ropeTrait gs = .ok gs := by
  obtain ⟨gs', h1, -, h3, h4⟩ := GapBuf.fromStrF_spec cap hcap _ s (Nat.lt_succ_self _)
  have : gs' = gs := by rw [GapBuf.fromStr, h1] at h; cases h; rfl
  subst this
  refine (C25_order_partial (ropeContent cap) (fun e he => ⟨(h3 e he).1, (h3 e he).2.1⟩) ?_).1 hne ?_
  · intro a b ha hb hc
    obtain ⟨c, hc1, -⟩ := (ropeLaw cap).merge_right a b ha hb hc
    exact ⟨c, hc1⟩
  · rintro U a b V rfl
    have ha := h3 a (by simp)
    have hb := h3 b (by simp)
    have hfull := h4 a (by
      rw [List.dropLast_append_of_ne_nil (by simp)]
      exact List.mem_append_right _ (by simp [List.dropLast]))
    have l1 : a.len = cap := by rw [← hfull, GapBuf.toVec_length a ha.1]
    have l2 : 0 < b.len := by rw [← GapBuf.toVec_length b hb.1]; exact List.length_pos_iff.mpr hb.2.2
    show decide (a.len + b.len ≤ a.capacity) = false
    rw [decide_eq_false_iff_not, ha.2.1]
    omega

example := C25_exact ropeTrait
  (data := [⟨[1, 0, 0, 0], 1, 3⟩, ⟨[2, 0, 0, 0], 1, 3⟩, ⟨[3, 3, 3, 3], 4, 0⟩, ⟨[4, 4, 0, 0], 2, 2⟩, ⟨[5, 5, 0, 0], 2, 2⟩]) (by simp) rfl

/-- the merged pairs of that list, and the order in which they are left -/
example : (pairs ropeTrait [⟨[1, 0, 0, 0], 1, 3⟩, ⟨[2, 0, 0, 0], 1, 3⟩, ⟨[3, 3, 3, 3], 4, 0⟩, ⟨[4, 4, 0, 0], 2, 2⟩, ⟨[5, 5, 0, 0], 2, 2⟩]).map
    (fun t => (t.map (fun x => (x.1, x.2.toVec)), (scramble t).map GapBuf.toVec)) =
    .ok ([(true, [1, 2]), (false, [3, 3, 3, 3]), (true, [4, 4, 5, 5])], [[1, 2], [4, 4, 5, 5], [3, 3, 3, 3]]) := rfl

example := C25_content_perm (ropeLaw 4) (ropeContent 4) (data := [⟨[1, 0, 0, 0], 1, 3⟩, ⟨[2, 0, 0, 0], 1, 3⟩, ⟨[3, 3, 3, 3], 4, 0⟩]) (by simp) (by
  intro d hd
  simp at hd
  rcases hd with rfl | rfl | rfl <;> exact ⟨by simp [GapBuf.WF], rfl⟩)

/-- two pairs next to each other, with other elements around them -/
example : mergeAdj ropeTrait [⟨[3, 3, 3, 3], 4, 0⟩, ⟨[1, 1, 1, 0], 3, 1⟩, ⟨[1, 0, 0, 0], 1, 3⟩, ⟨[2, 2, 2, 0], 3, 1⟩, ⟨[2, 0, 0, 0], 1, 3⟩, ⟨[3, 3, 3, 3], 4, 0⟩] =
    .ok [⟨[3, 3, 3, 3], 4, 0⟩, ⟨[1, 1, 1, 1], 4, 0⟩, ⟨[2, 2, 2, 2], 4, 0⟩, ⟨[3, 3, 3, 3], 4, 0⟩] :=
  C25_order_pairs_partial ropeTrait (U := [(false, ⟨[3, 3, 3, 3], 4, 0⟩)]) (V := [(false, ⟨[3, 3, 3, 3], 4, 0⟩)]) (M := [_, _])
    (by simp) (by simp) (by simp) (by simp) rfl

example := C25_permutation ropeTrait
  (data := [⟨[1, 0, 0, 0], 1, 3⟩, ⟨[2, 0, 0, 0], 1, 3⟩, ⟨[3, 3, 3, 3], 4, 0⟩, ⟨[4, 4, 0, 0], 2, 2⟩, ⟨[5, 5, 0, 0], 2, 2⟩]) (by simp) rfl

example : ∃ gs, GapBuf.fromStr 3 [1, 2, 3, 4, 5, 6, 7] = .ok gs ∧ mergeAdj ropeTrait gs = .ok gs :=
  ⟨_, rfl, C25_rope_chunks (cap := 3) (by decide) (s := [1, 2, 3, 4, 5, 6, 7]) rfl (by simp)⟩

/-- one pair that merges, between chunks that do not -/
example : ∃ r, mergeAdj ropeTrait [⟨[3, 3, 3, 3], 4, 0⟩, ⟨[1, 1, 1, 0], 3, 1⟩, ⟨[2, 0, 0, 0], 1, 3⟩, ⟨[5, 5, 5, 5], 4, 0⟩] = .ok r ∧ r.flatMap GapBuf.toVec = [3, 3, 3, 3, 1, 1, 1, 2, 5, 5, 5, 5] := by
  refine (C25_order_partial (ropeContent 4) (data := [⟨[3, 3, 3, 3], 4, 0⟩, ⟨[1, 1, 1, 0], 3, 1⟩, ⟨[2, 0, 0, 0], 1, 3⟩, ⟨[5, 5, 5, 5], 4, 0⟩]) (by
      intro e he
      simp only [List.mem_cons, List.not_mem_nil, or_false] at he
      rcases he with rfl | rfl | rfl | rfl <;> exact ⟨by simp [GapBuf.WF], rfl⟩) (fun a b ha hb h => by
      obtain ⟨g, h1, -⟩ := (C38_merge a b ha.1 hb.1).2.1 h
      exact ⟨g, h1⟩)).2 [⟨[3, 3, 3, 3], 4, 0⟩] _ _ [⟨[5, 5, 5, 5], 4, 0⟩] rfl rfl ?_ ?_
  · intro X x y Y h
    match X, h with
    | [], h => cases h; rfl
    | [_], h => cases h
    | _ :: _ :: X, h => simp at h
  · intro X x y Y h
    have := congrArg List.length h
    simp at this
    omega

end GB

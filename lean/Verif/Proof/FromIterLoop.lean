import Verif.Proof.FromIter

/-!
# `from_iter`: the loops
-/

namespace GB
variable {E C D : Type}
open Tree

/-- The state of the loop over one level: `done ++ [last]` on level `j + 1` take up the nodes `ts` of level `j`;
`ls` are the leaves in order. -/
structure LS {B : Trait E C D} (A : Law B) (K j : Nat) (s : Tree E C) (G : Nat → List (Child C)) (lvl : Nat → Nat) (done : List (TempNode C)) (last : TempNode C)
    (ts : List (TempNode C)) (ls : List Nat) : Prop where
  fi : FI A K s G lvl ((done ++ last :: ts).map TempNode.arena)
  nd : ((done ++ last :: ts).map TempNode.arena).Nodup
  ch : ∀ t ∈ done ++ last :: ts, t.children = G t.arena
  lv : ∀ t ∈ done ++ [last], lvl t.arena = j + 1
  lt : ∀ t ∈ ts, lvl t.arena = j ∧ G t.arena ≠ []
  full : ∀ t ∈ done, t.children.length = MAXCS
  ord : (done ++ [last]).flatMap (fun t => leavesG G (j + 1) t.arena) ++ ts.flatMap (fun t => leavesG G j t.arena) = ls

theorem newTemp_eq (B : Trait E C D) (s : Tree E C) : newTemp B s = (⟨[], B.dflt, s.inn.items.length⟩, allocIn s ⟨none, SLOT_MAX, []⟩) := rfl

section
variable {B : Trait E C D} {A : Law B} {K j : Nat} {s : Tree E C} {G : Nat → List (Child C)} {lvl : Nat → Nat} {done ts : List (TempNode C)} {last : TempNode C} {ls : List Nat}

theorem leavesG_nil {x : Nat} (h : G x = []) (n : Nat) : leavesG G n x = [] := by
  cases n with
  | zero => rfl
  | succ n => rw [leavesG, h]; rfl

theorem tempRoom_spec (L : LS A K j s G lvl done last ts ls) (hj : j + 1 ≤ K) :
    ∃ s' lvl' done' last', tempRoom B s done last = .ok (s', done', last') ∧ LS A K j s' G lvl' done' last' ts ls ∧ last'.children.length < MAXCS ∧
      MAXCS * done'.length + last'.children.length = MAXCS * done.length + last.children.length ∧ last.children.length % MAXCS = last'.children.length ∧
      s'.lf = s.lf ∧ s'.root = s.root ∧ s'.rootCache = s.rootCache ∧ s.inn.items.length ≤ s'.inn.items.length := by
  by_cases hl : last.children.length < MAXCS
  · exact ⟨s, lvl, done, last, by rw [tempRoom, if_pos hl], L, hl, rfl, Nat.mod_eq_of_lt hl, rfl, rfl, rfl, Nat.le_refl _⟩
  · have hG : last.children = G last.arena := L.ch last (by simp)
    have hlen : last.children.length = MAXCS := by
      have := L.fi.len last.arena
      rw [← hG] at this
      omega
    obtain ⟨d, hc, -⟩ := A.calc_ok last.cache (last.children.map Child.cache) (by
      intro h
      have := congrArg List.length h
      rw [List.length_map, hlen] at this
      cases this) (by
      intro c hc
      obtain ⟨x, hx, rfl⟩ := List.mem_map.mp hc
      rw [hG] at hx
      exact L.fi.okc _ _ hx)
    obtain ⟨fr1, fr2, fr3, fr4⟩ := L.fi.fresh (Nat.le_refl _)
    have hlv : ∀ t ∈ done ++ last :: ts, updAt lvl s.inn.items.length (j + 1) t.arena = lvl t.arena := by
      intro t ht
      apply updAt_ne
      intro e
      exact fr3 (e ▸ List.mem_map.mpr ⟨t, ht, rfl⟩)
    refine ⟨allocIn s ⟨none, SLOT_MAX, []⟩, updAt lvl s.inn.items.length (j + 1), done ++ [{ last with cache := A.total (last.children.map Child.cache) }],
      ⟨[], B.dflt, s.inn.items.length⟩, ?_, ?_, (by decide : 0 < MAXCS), ?_, ?_, rfl, rfl, rfl, ?_⟩
    · rw [tempRoom, if_neg hl, hc]
      rfl
    · have hmem : ∀ t, t ∈ (done ++ [{ last with cache := A.total (last.children.map Child.cache) }]) ++ ⟨[], B.dflt, s.inn.items.length⟩ :: ts →
          t = ⟨[], B.dflt, s.inn.items.length⟩ ∨ ∃ t' ∈ done ++ last :: ts, t'.arena = t.arena ∧ t'.children = t.children := by
        intro t ht
        simp only [List.mem_append, List.mem_cons, List.not_mem_nil, or_false] at ht
        rcases ht with (ht | ht) | ht | ht
        · exact .inr ⟨t, by simp [ht], rfl, rfl⟩
        · exact .inr ⟨last, by simp, by rw [ht], by rw [ht]⟩
        · exact .inl ht
        · exact .inr ⟨t, by simp [ht], rfl, rfl⟩
      refine { fi := ?_, nd := ?_, ch := ?_, lv := ?_, lt := ?_, full := ?_, ord := ?_ }
      · refine (L.fi.newTemp (Nat.le_add_left 1 j) (Nat.le_refl K) hj).tops ?_
        intro x
        simp only [List.map_append, List.map_cons, List.map_nil, List.mem_append, List.mem_cons, List.not_mem_nil, or_false]
        constructor
        · rintro ((h | h) | h | h)
          · exact .inr (.inl h)
          · exact .inr (.inr (.inl h))
          · exact .inl h
          · exact .inr (.inr (.inr h))
        · rintro (h | h | h | h)
          · exact .inr (.inl h)
          · exact .inl (.inl h)
          · exact .inl (.inr h)
          · exact .inr (.inr h)
      · have : ((done ++ [{ last with cache := A.total (last.children.map Child.cache) }]) ++ (⟨[], B.dflt, s.inn.items.length⟩ : TempNode C) :: ts).map TempNode.arena =
            (done ++ [last]).map TempNode.arena ++ s.inn.items.length :: ts.map TempNode.arena := by simp
        rw [this]
        have hp : ((done ++ [last]).map TempNode.arena ++ s.inn.items.length :: ts.map TempNode.arena).Perm
            (s.inn.items.length :: (done ++ last :: ts).map TempNode.arena) := by
          refine List.perm_middle.trans (List.Perm.cons _ ?_)
          simp
        rw [hp.nodup_iff, List.nodup_cons]
        exact ⟨fr3, L.nd⟩
      · intro t ht
        rcases hmem t ht with rfl | ⟨t', h1, h2, h3⟩
        · exact fr2.symm
        · rw [← h2, ← h3]; exact L.ch t' h1
      · intro t ht
        rcases hmem t (by
          rcases List.mem_append.mp ht with h | h
          · exact List.mem_append.mpr (.inl h)
          · rw [List.mem_singleton] at h; subst h; simp) with rfl | ⟨t', h1, h2, h3⟩
        · exact updAt_self _ _ _
        · rw [← h2, hlv t' h1]
          rcases List.mem_append.mp ht with h | h
          · simp only [List.mem_append, List.mem_singleton] at h
            rcases h with h | h
            · rw [h2]; exact L.lv t (by simp [h])
            · rw [h2, h]; exact L.lv last (by simp)
          · rw [List.mem_singleton] at h
            subst h
            exfalso
            apply fr3
            rw [← show t'.arena = s.inn.items.length from h2]
            exact List.mem_map.mpr ⟨t', h1, rfl⟩
      · intro t ht
        rw [hlv t (by simp [ht])]
        exact L.lt t ht
      · intro t ht
        simp only [List.mem_append, List.mem_singleton] at ht
        rcases ht with ht | ht
        · exact L.full t ht
        · rw [ht]; exact hlen
      · rw [← L.ord]
        congr 1
        simp only [List.flatMap_append, List.flatMap_cons, List.flatMap_nil, List.append_nil, List.append_assoc]
        rw [leavesG_nil fr2]
        simp
    · rw [hlen, List.length_append, List.length_singleton, Nat.mul_add]
      rfl
    · rw [hlen]; rfl
    · simp

/-- one element -/
theorem LS.leaf (L : LS A K 0 s G lvl done last [] ls) (hl : last.children.length < MAXCS) {e : E} (he : A.okE e) :
    LS A K 0 (addLf s ⟨e, last.arena⟩) (updAt G last.arena (G last.arena ++ [⟨.leaf s.lf.items.length, B.elemCache e⟩])) lvl done
      { last with children := last.children ++ [⟨.leaf s.lf.items.length, B.elemCache e⟩] } [] (ls ++ [s.lf.items.length]) := by
  have hG : last.children = G last.arena := L.ch last (by simp)
  have nd := L.nd
  rw [List.map_append, List.map_cons, List.map_nil, List.nodup_append] at nd
  have hd : ∀ t ∈ done, t.arena ≠ last.arena := fun t ht => nd.2.2 t.arena (List.mem_map.mpr ⟨t, ht, rfl⟩) last.arena (by simp)
  refine { fi := ?_, nd := ?_, ch := ?_, lv := ?_, lt := by simp, full := L.full, ord := ?_ }
  · refine (L.fi.addLeaf (p := last.arena) (by simp) (L.lv last (by simp)) (by rw [← hG]; exact hl) he).tops ?_
    intro x; simp
  · simpa using L.nd
  · intro t ht
    simp only [List.mem_append, List.mem_singleton] at ht
    rcases ht with ht | ht
    · rw [updAt_ne _ _ (hd t ht)]; exact L.ch t (by simp [ht])
    · rw [ht]; simp [hG]
  · intro t ht
    simp only [List.mem_append, List.mem_singleton] at ht
    rcases ht with ht | ht
    · exact L.lv t (by simp [ht])
    · rw [ht]; exact L.lv last (by simp)
  · rw [← L.ord]
    simp only [List.flatMap_append, List.flatMap_cons, List.flatMap_nil, List.append_nil]
    rw [leavesG_self L.fi _ 0 (L.lv last (by simp)), ← List.append_assoc]
    congr 2
    apply flatMap_congr'
    intro t ht
    apply L.fi.leaves_frame _ _ _ (hd t ht)
    rw [L.lv t (by simp [ht]), L.lv last (by simp)]
    exact Nat.le_refl _

/-- one node of the level below -/
theorem LS.node {t : TempNode C} (L : LS A K j s G lvl done last (t :: ts) ls) (hl : last.children.length < MAXCS) :
    LS A K j (s.setIn t.arena ⟨some last.arena, last.children.length, t.children⟩)
      (updAt G last.arena (G last.arena ++ [⟨.internal t.arena, A.total (t.children.map Child.cache)⟩])) lvl done
      { last with children := last.children ++ [⟨.internal t.arena, A.total (t.children.map Child.cache)⟩] } ts ls := by
  have hG : last.children = G last.arena := L.ch last (by simp)
  have hGt : t.children = G t.arena := L.ch t (by simp)
  have nd := L.nd
  rw [List.map_append, List.map_cons, List.map_cons, List.nodup_append, List.nodup_cons, List.nodup_cons] at nd
  obtain ⟨nd1, ⟨nd2, nd3, nd4⟩, nd5⟩ := nd
  have hd : ∀ x ∈ done, x.arena ≠ last.arena := fun x hx => nd5 x.arena (List.mem_map.mpr ⟨x, hx, rfl⟩) last.arena (by simp)
  have hdt : ∀ x ∈ done, x.arena ≠ t.arena := fun x hx => nd5 x.arena (List.mem_map.mpr ⟨x, hx, rfl⟩) t.arena (by simp)
  have hts : ∀ x ∈ ts, x.arena ≠ t.arena ∧ x.arena ≠ last.arena := by
    intro x hx
    have hm : x.arena ∈ ts.map TempNode.arena := List.mem_map.mpr ⟨x, hx, rfl⟩
    refine ⟨fun e => nd3 (e ▸ hm), fun e => nd2 ?_⟩
    rw [← e]
    exact List.mem_cons_of_mem _ hm
  have hlt : last.arena ≠ t.arena := by
    intro e
    apply nd2
    rw [e]
    exact List.mem_cons_self
  obtain ⟨lv1, ne1⟩ := L.lt t (by simp)
  have lvl1 := L.lv last (by simp)
  refine { fi := ?_, nd := ?_, ch := ?_, lv := ?_, lt := ?_, full := L.full, ord := ?_ }
  · rw [hG, hGt]
    refine L.fi.link (by simp) (by simp) hlt (by rw [lvl1, lv1]) (by rw [← hG]; exact hl) ne1 ?_
    intro x
    simp only [List.map_append, List.map_cons, List.mem_append, List.mem_cons]
    constructor
    · rintro (h | h | h)
      · obtain ⟨y, hy, rfl⟩ := List.mem_map.mp h
        exact ⟨.inl h, hdt y hy⟩
      · exact ⟨.inr (.inl h), by rw [h]; exact hlt⟩
      · obtain ⟨y, hy, rfl⟩ := List.mem_map.mp h
        exact ⟨.inr (.inr (.inr h)), (hts y hy).1⟩
    · rintro ⟨h | h | h | h, hx⟩
      · exact .inl h
      · exact .inr (.inl h)
      · exact absurd h hx
      · exact .inr (.inr h)
  · rw [List.map_append, List.map_cons, List.nodup_append, List.nodup_cons]
    refine ⟨nd1, ⟨fun h => nd2 (List.mem_cons_of_mem _ h), nd4⟩, ?_⟩
    intro a ha b hb
    apply nd5 a ha b
    rcases List.mem_cons.mp hb with h | h
    · rw [h]; exact List.mem_cons_self
    · exact List.mem_cons_of_mem _ (List.mem_cons_of_mem _ h)
  · intro x hx
    simp only [List.mem_append, List.mem_cons] at hx
    rcases hx with hx | hx | hx
    · rw [updAt_ne _ _ (hd x hx)]; exact L.ch x (by simp [hx])
    · rw [hx]; simp [hG]
    · rw [updAt_ne _ _ (hts x hx).2]; exact L.ch x (by simp [hx])
  · intro x hx
    simp only [List.mem_append, List.mem_singleton] at hx
    rcases hx with hx | hx
    · exact L.lv x (by simp [hx])
    · rw [hx]; exact lvl1
  · intro x hx
    rw [updAt_ne _ _ (hts x hx).2]
    exact L.lt x (by simp [hx])
  · rw [← L.ord]
    simp only [List.flatMap_append, List.flatMap_cons, List.flatMap_nil, List.append_nil]
    rw [leavesG_self L.fi _ j lvl1]
    show _ ++ (_ ++ leavesG _ j t.arena) ++ _ = _
    rw [L.fi.leaves_frame _ _ _ (fun e => hlt e.symm) (by rw [lv1, lvl1]; omega)]
    have e1 : done.flatMap (fun t_1 => leavesG (updAt G last.arena (G last.arena ++ [⟨.internal t.arena, A.total (t.children.map Child.cache)⟩])) (j + 1) t_1.arena) =
        done.flatMap (fun t_1 => leavesG G (j + 1) t_1.arena) := by
      apply flatMap_congr'
      intro x hx
      apply L.fi.leaves_frame _ _ _ (hd x hx)
      rw [L.lv x (by simp [hx]), lvl1]
      exact Nat.le_refl _
    have e2 : ts.flatMap (fun t_1 => leavesG (updAt G last.arena (G last.arena ++ [⟨.internal t.arena, A.total (t.children.map Child.cache)⟩])) j t_1.arena) =
        ts.flatMap (fun t_1 => leavesG G j t_1.arena) := by
      apply flatMap_congr'
      intro x hx
      apply L.fi.leaves_frame _ _ _ (hts x hx).2
      rw [(L.lt x (by simp [hx])).1, lvl1]
      omega
    rw [e1, e2]
    simp only [List.append_assoc]

theorem fromIterLeaves_spec : ∀ (es : List E) (s : Tree E C) (G : Nat → List (Child C)) (lvl : Nat → Nat) (done : List (TempNode C)) (last : TempNode C) (pre : List E),
    LS A 1 0 s G lvl done last [] (List.range s.lf.items.length) → (∀ e ∈ es, A.okE e) → s.lf.items.length = pre.length → (∀ i, elm s i = pre[i]?) →
    (done ≠ [] → last.children ≠ []) →
    ∃ s' G' lvl' done' last', fromIterLeaves B s done last es = .ok (s', done' ++ [last']) ∧ LS A 1 0 s' G' lvl' done' last' [] (List.range s'.lf.items.length) ∧
      s'.lf.items.length = (pre ++ es).length ∧ (∀ i, elm s' i = (pre ++ es)[i]?) ∧ (done' ≠ [] → last'.children ≠ []) ∧
      s'.root = s.root ∧ s'.rootCache = s.rootCache ∧ s.inn.items.length ≤ s'.inn.items.length ∧
      MAXCS * done'.length + last'.children.length = MAXCS * done.length + last.children.length + es.length := by
  intro es
  induction es with
  | nil =>
    intro s G lvl done last pre L _ hn hel hne
    exact ⟨s, G, lvl, done, last, rfl, L, by simpa using hn, by simpa using hel, hne, rfl, rfl, Nat.le_refl _, rfl⟩
  | cons e es ih =>
    intro s G lvl done last pre L hok hn hel hne
    obtain ⟨s1, lvl1, done1, last1, k1, L1, k3, k4, -, k6, k7, k8, k9⟩ := tempRoom_spec L (Nat.le_refl _)
    have L2 := L1.leaf k3 (hok e (by simp))
    obtain ⟨s', G', lvl', done', last', q1, q2, q3, q4, q5, q6, q7, q8, q9⟩ := ih (addLf s1 ⟨e, last1.arena⟩) _ _ _ _ (pre ++ [e])
      (by rw [lfitems_addLf, List.range_succ, k6]; rw [k6] at L2; exact L2) (fun x hx => hok x (by simp [hx]))
      (by rw [lfitems_addLf, k6, hn]; simp) (by
        intro i
        rw [elm_addLf, k6, List.getElem?_append]
        have : elm s1 i = elm s i := by simp only [elm, k6]
        rw [this, hel]
        by_cases hi : i = s.lf.items.length
        · subst hi; simp [hn]
        · rw [if_neg hi]
          split
          · rfl
          · rw [List.getElem?_eq_none (by omega), List.getElem?_eq_none (by simp; omega)]) (by simp)
    refine ⟨s', G', lvl', done', last', ?_, q2, by rw [q3]; simp, by simpa using q4, q5, by rw [q6]; exact k7, by rw [q7]; exact k8, by
      have : (addLf s1 ⟨e, last1.arena⟩).inn.items.length = s1.inn.items.length := rfl
      omega, by rw [q9]; simp; omega⟩
    rw [fromIterLeaves, k1, bind_ok]
    simp only [allocLeafChild_eq]
    rw [vpush, if_pos (by unfold MAXCS at k3; omega), bind_ok]
    rw [k6]
    exact q1

theorem fromIterLevel_spec (hj : j + 1 ≤ K) : ∀ (ts : List (TempNode C)) (s : Tree E C) (G : Nat → List (Child C)) (lvl : Nat → Nat) (done : List (TempNode C)) (last : TempNode C) (slot : Nat),
    LS A K j s G lvl done last ts ls → slot = last.children.length % MAXCS → (ts ≠ [] ∨ last.children ≠ []) → last.children.length ≤ MAXCS →
    ∃ s' G' lvl' done' last', fromIterLevel B s done last slot ts = .ok (s', done' ++ [last']) ∧ LS A K j s' G' lvl' done' last' [] ls ∧ last'.children ≠ [] ∧
      MAXCS * done'.length + last'.children.length = MAXCS * done.length + last.children.length + ts.length ∧ last'.children.length ≤ MAXCS ∧
      s'.lf = s.lf ∧ s'.root = s.root ∧ s'.rootCache = s.rootCache ∧ s.inn.items.length ≤ s'.inn.items.length := by
  intro ts
  induction ts with
  | nil =>
    intro s G lvl done last slot L _ hne hle
    exact ⟨s, G, lvl, done, last, rfl, L, hne.resolve_left (fun h => h rfl), by simp, hle, rfl, rfl, rfl, Nat.le_refl _⟩
  | cons t ts ih =>
    intro s G lvl done last slot L hs _ _
    obtain ⟨s1, lvl1, done1, last1, k1, L1, k3, k4, k5, k6, k7, k8, k9⟩ := tempRoom_spec L hj
    have L2 := L1.node k3
    have hGt : t.children = G t.arena := L1.ch t (by simp)
    obtain ⟨d, hc, -⟩ := A.calc_ok t.cache (t.children.map Child.cache) (by
      rw [hGt]; simpa using (L1.lt t (by simp)).2) (by
      intro c hc
      obtain ⟨x, hx, rfl⟩ := List.mem_map.mp hc
      rw [hGt] at hx
      exact L1.fi.okc _ _ hx)
    have hget := get_of_lnk (L1.fi.top t.arena (by simp)).1
    obtain ⟨s', G', lvl', done', last', q1, q2, q3, q4, q4b, q5, q6, q7, q8⟩ := ih _ _ _ _ _ ((slot + 1) % MAXCS) L2 (by
      rw [hs, k5]; simp) (.inr (by simp)) (by simp; omega)
    refine ⟨s', G', lvl', done', last', ?_, q2, q3, by rw [q4]; simp; omega, q4b, by rw [q5]; exact k6, by rw [q6]; exact k7, by rw [q7]; exact k8, by
      have : (s1.setIn t.arena ⟨some last1.arena, last1.children.length, t.children⟩).inn.items.length = s1.inn.items.length := by simp
      omega⟩
    rw [fromIterLevel, k1, bind_ok]
    simp only [hc, bind_ok, getIn_ok hget]
    rw [vpush, if_pos (by unfold MAXCS at k3; omega), bind_ok]
    rw [hs, k5]
    rw [hs, k5] at q1
    exact q1

end
end GB
